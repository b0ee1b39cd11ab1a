import Verif.Props.Lobpcg

/-! # More iterations and tighter tolerances

A run of `lobpcg` with fewer iterations, or, for a single vector, with a larger tolerance, is the beginning of the run with
more iterations or the smaller tolerance. For every scalar type. -/

set_option linter.unusedSectionVars false

namespace LinfaLinalg

variable {α : Type} [Zero α] [One α] [Add α] [Sub α] [Mul α] [Div α] [Neg α] [NdFloat α]

/-- The update step looks neither at the tolerance nor at the number of iterations left. -/
theorem lobTail_settings {eig : EigSolver α} {P : LobParams α} {c : Option (Arr2 α)} {st : LobState α} {r : Arr2 α}
    {norms : List α} (t : α) (i : Nat) {o : Except LinalgError (LobState α)}
    (h : lobTail eig { P with tol := t } c { st with iter := i } r norms = .ok o) :
    (∃ e, o = .error e ∧ lobTail eig P c st r norms = .ok (.error e)) ∨
    ∃ s, o = .ok { s with iter := i - 1 } ∧ s.iter = st.iter - 1 ∧ lobTail eig P c st r norms = .ok (.ok s) := by
  have hpre : ∀ v, ({ P with tol := t } : LobParams α).precondition v = P.precondition v := fun _ => rfl
  have hcon : ∀ v, ({ P with tol := t } : LobParams α).constrain c v = P.constrain c v := fun _ => rfl
  have happ : ∀ k v, ({ P with tol := t } : LobParams α).apply k v = P.apply k v := fun _ _ => rfl
  unfold lobTail at h ⊢
  simp only [bind_eq_ok, hpre, hcon, happ] at h
  obtain ⟨v, hv, w, hw, u, hu, xv, hxv, z, hz, q, hq, h⟩ := h
  rw [hv, ok_bind, hw, ok_bind, hu, ok_bind, hxv, ok_bind, hz, ok_bind, hq, ok_bind]
  rcases q with e | ⟨r', l⟩
  · injection h with h
    exact .inl ⟨e, h.symm, rfl⟩
  simp only [bind_eq_ok] at h
  obtain ⟨ar, har, g, hg, pap, hpap, ⟨pap', res⟩, hres, h⟩ := h
  simp only
  rw [har, ok_bind]
  set E := NdFloat.le (norms.foldl NdFloat.max NdFloat.negInf)
    (if NdFloat.lt (NdFloat.ofRat (1 / 10 ^ 8)) (NdFloat.epsilon : α) = true then NdFloat.ofRat 1
      else NdFloat.ofRat (1 / 10 ^ 8)) || st.explicitGram
  have hg' : xrGram { st with calls := st.calls + 1, explicitGram := E } r' ar = .ok g := hg
  have hres' : lobEig eig P.order { st with calls := st.calls + 1, explicitGram := E } r' g pap = .ok (pap', res) := hres
  rw [hg', ok_bind, hpap, ok_bind, hres', ok_bind]
  rcases res with e | ⟨lambda, vecs, gram⟩
  · injection h with h
    exact .inl ⟨e, h.symm, rfl⟩
  simp only [bind_eq_ok] at h
  obtain ⟨tau, htau, ⟨p, ap⟩, hp, xt, hxt, x, hx, axt, haxt, ax, hax, h⟩ := h
  injection h with h
  right
  refine ⟨{ st with
    lambda := lambda, x := x, ax := ax, pap := some (p, ap), explicitGram := E, iter := st.iter - 1,
    calls := st.calls + 1, gram := some gram }, h.symm, rfl, ?_⟩
  simp only
  rw [htau, ok_bind, hp, ok_bind]
  simp only
  rw [hxt, ok_bind, hx, ok_bind, haxt, ok_bind, hax, ok_bind]

/-- What the first part of a pass does to the state. -/
def headState (tol : α) (st : LobState α) (norms : List α) : LobState α :=
  { st with
    best := updateBest st.best ⟨st.lambda, st.x, norms⟩
    mask := updateMask tol norms st.mask
    blockSize := (updateMask tol norms st.mask).count true
    ident := if (updateMask tol norms st.mask).count true ≠ st.blockSize then
      Arr2.eye ((updateMask tol norms st.mask).count true) ((updateMask tol norms st.mask).count true) else st.ident
    hist := st.hist ++ [⟨⟨st.lambda, st.x, norms⟩, updateMask tol norms st.mask, st.gram⟩] }

/-- One pass of the loop. -/
inductive Pass (eig : EigSolver α) (P : LobParams α) (c : Option (Arr2 α)) (N : Nat) (st s : LobState α)
    (o : Option LinalgError) : Prop
  | stop (r : Arr2 α) (norms : List α) (hr : lobResidual st = .ok (r, norms))
      (hs : (headState P.tol st norms).blockSize = 0 ∨ st.iter = 0) (h1 : s = headState P.tol st norms) (h2 : o = none)
  | fail (r : Arr2 α) (norms : List α) (hr : lobResidual st = .ok (r, norms))
      (hb : (headState P.tol st norms).blockSize ≠ 0) (hi : st.iter ≠ 0) (hN : 0 < N) (e : LinalgError)
      (ht : lobTail eig P c (headState P.tol st norms) r norms = .ok (.error e))
      (h1 : s = headState P.tol st norms) (h2 : o = some e)
  | next (r : Arr2 α) (norms : List α) (hr : lobResidual st = .ok (r, norms))
      (hb : (headState P.tol st norms).blockSize ≠ 0) (hi : st.iter ≠ 0) (N' : Nat) (hN : N = N' + 1) (s1 : LobState α)
      (ht : lobTail eig P c (headState P.tol st norms) r norms = .ok (.ok s1))
      (hl : lobLoop eig P c N' s1 = .ok (s, o))

theorem lobLoop_pass {eig : EigSolver α} {P : LobParams α} {c : Option (Arr2 α)} {N : Nat} {st s : LobState α}
    {o : Option LinalgError} : lobLoop eig P c N st = .ok (s, o) ↔ Pass eig P c N st s o := by
  constructor
  · intro h
    unfold lobLoop at h
    rw [bind_eq_ok] at h
    obtain ⟨⟨s1, r, norms⟩, h1, h2⟩ := h
    obtain ⟨k1, k2⟩ := lobHead_inv h1
    replace k2 : s1 = headState P.tol st norms := k2
    subst k2
    simp only at h2
    split_ifs at h2 with hc
    · injection h2 with h2
      simp only [Prod.mk.injEq] at h2
      exact .stop r norms k1 hc h2.1.symm h2.2.symm
    · rw [not_or] at hc
      cases N with
      | zero => cases h2
      | succ N =>
        simp only [bind_eq_ok] at h2
        obtain ⟨o1, h3, h4⟩ := h2
        rcases o1 with e | s2
        · injection h4 with h4
          simp only [Prod.mk.injEq] at h4
          exact .fail r norms k1 hc.1 hc.2 (Nat.succ_pos _) e h3 h4.1.symm h4.2.symm
        · exact .next r norms k1 hc.1 hc.2 N rfl s2 h3 h4
  · intro h
    have hh : ∀ r norms, lobResidual st = .ok (r, norms) → lobHead P st = .ok (headState P.tol st norms, r, norms) := by
      intro r norms hr
      unfold lobHead
      rw [hr, ok_bind]
      rfl
    cases h with
    | stop r norms hr hs h1 h2 =>
      subst h1 h2
      unfold lobLoop
      rw [hh r norms hr, ok_bind]
      simp only
      rw [if_pos (show (headState P.tol st norms).blockSize = 0 ∨ (headState P.tol st norms).iter = 0 from hs)]
    | fail r norms hr hb hi hN e ht h1 h2 =>
      subst h1 h2
      obtain ⟨N, rfl⟩ := Nat.exists_eq_succ_of_ne_zero hN.ne'
      unfold lobLoop
      rw [hh r norms hr, ok_bind]
      simp only
      rw [if_neg (show ¬ ((headState P.tol st norms).blockSize = 0 ∨ (headState P.tol st norms).iter = 0) from
        not_or.2 ⟨hb, hi⟩), ht, ok_bind]
    | next r norms hr hb hi N' hN s1 ht hl =>
      subst hN
      unfold lobLoop
      rw [hh r norms hr, ok_bind]
      simp only
      rw [if_neg (show ¬ ((headState P.tol st norms).blockSize = 0 ∨ (headState P.tol st norms).iter = 0) from
        not_or.2 ⟨hb, hi⟩), ht, ok_bind]
      exact hl

/-- The loop only appends to the history. -/
theorem lobLoop_append {eig : EigSolver α} {P : LobParams α} {c : Option (Arr2 α)} (N : Nat) (st s : LobState α)
    (o : Option LinalgError) (h : lobLoop eig P c N st = .ok (s, o)) :
    ∃ it post, s.hist = st.hist ++ it :: post := by
  induction N generalizing st with
  | zero =>
    cases lobLoop_pass.1 h with
    | stop r norms hr hs h1 h2 => exact ⟨_, [], by rw [h1]; rfl⟩
    | fail r norms hr hb hi hN => omega
    | next r norms hr hb hi N' hN => omega
  | succ N ih =>
    cases lobLoop_pass.1 h with
    | stop r norms hr hs h1 h2 => exact ⟨_, [], by rw [h1]; rfl⟩
    | fail r norms hr hb hi hN e ht h1 h2 => exact ⟨_, [], by rw [h1]; rfl⟩
    | next r norms hr hb hi N' hN s1 ht hl =>
      obtain rfl : N = N' := by omega
      obtain ⟨it, post, k⟩ := ih s1 hl
      refine ⟨⟨⟨st.lambda, st.x, norms⟩, updateMask P.tol norms st.mask, st.gram⟩, it :: post, ?_⟩
      rw [k, (lobTail_frame ht).1]
      simp only [headState, List.append_assoc, List.singleton_append]

/-- What the two runs have in common: the first is the second without what comes after the last iterate, which may differ
in the mask. `N` is the number of iterates the first run may visit, `same` says that the tolerances are the same. -/
structure Sooner (same : Prop) (N : Nat) (hist hist' : List (Iterate α)) (b b' : Option (Lobpcg α))
    (o o' : Option LinalgError) : Prop where
  length : hist.length ≤ N
  run : ∃ pre it it' post, hist = pre ++ [it] ∧ hist' = pre ++ it' :: post ∧ it.pairs = it'.pairs ∧ it.gram = it'.gram ∧
    (same → it = it') ∧ (post = [] → b = b') ∧ (∀ e, o = some e → post = [] ∧ o' = some e) ∧
    (same → hist.length < N → post = [] ∧ o = o')

theorem lobLoop_settings_stop {eig : EigSolver α} {P : LobParams α} {c : Option (Arr2 α)} {t : α}
    (n m : Nat) (st : LobState α) (hi : st.iter = n) {s' : LobState α} {o' : Option LinalgError}
    (h : lobLoop eig { P with tol := t } c (n + m) { st with iter := n + m } = .ok (s', o'))
    (r : Arr2 α) (norms : List α) (hr : lobResidual st = .ok (r, norms))
    (hs : (headState P.tol st norms).blockSize = 0 ∨ st.iter = 0) :
    ∃ s o, lobLoop eig P c n st = .ok (s, o) ∧
      Sooner (P.tol = t) (st.hist.length + 1 + n) s.hist s'.hist s.best s'.best o o' := by
  have hres : lobResidual { st with iter := n + m } = lobResidual st := rfl
  refine ⟨_, _, lobLoop_pass.2 (.stop r norms hr hs rfl rfl), ?_⟩
  have hlen : (headState P.tol st norms).hist.length = st.hist.length + 1 := by simp [headState]
  have hlen' : (headState P.tol st norms).hist.length ≤ st.hist.length + 1 + n := by omega
  cases lobLoop_pass.1 h with
  | stop r' norms' hr' hs' h1 h2 =>
    rw [hres, hr] at hr'
    injection hr' with hr'
    simp only [Prod.mk.injEq] at hr'
    obtain ⟨rfl, rfl⟩ := hr'
    subst h1 h2
    exact ⟨hlen', st.hist, _, _, [], rfl, rfl, rfl, rfl, fun e => by subst e; rfl, fun _ => rfl, nofun, fun _ _ => ⟨rfl, rfl⟩⟩
  | fail r' norms' hr' hb' hi' hN e ht h1 h2 =>
    rw [hres, hr] at hr'
    injection hr' with hr'
    simp only [Prod.mk.injEq] at hr'
    obtain ⟨rfl, rfl⟩ := hr'
    subst h1 h2
    refine ⟨hlen', st.hist, _, _, [], rfl, rfl, rfl, rfl, fun e => by subst e; rfl, fun _ => rfl, nofun, fun e hl => ?_⟩
    subst e
    rcases hs with hs | hs
    · exact absurd hs hb'
    · omega
  | next r' norms' hr' hb' hi' N' hN s1 ht hl =>
    rw [hres, hr] at hr'
    injection hr' with hr'
    simp only [Prod.mk.injEq] at hr'
    obtain ⟨rfl, rfl⟩ := hr'
    obtain ⟨it, post, k⟩ := lobLoop_append _ _ _ _ hl
    rw [(lobTail_frame ht).1] at k
    refine ⟨hlen', st.hist, _, ⟨⟨st.lambda, st.x, norms⟩, updateMask t norms st.mask, st.gram⟩, it :: post, rfl, ?_, rfl, rfl, fun e => by subst e; rfl, nofun, nofun, fun e hl => ?_⟩
    · rw [k]
      simp only [headState, List.append_assoc, List.singleton_append]
    · subst e
      rcases hs with hs | hs
      · exact absurd hs hb'
      · omega

theorem headState_settings {P : LobParams α} {t : α} {G : List Bool → Prop}
    (hG : ∀ norms mask, G mask → (updateMask P.tol norms mask).count true ≠ 0 →
      updateMask t norms mask = updateMask P.tol norms mask ∧ G (updateMask P.tol norms mask))
    {st : LobState α} (hst : G st.mask) (i : Nat) {norms : List α} (hb : (headState P.tol st norms).blockSize ≠ 0) :
    headState t { st with iter := i } norms = { headState P.tol st norms with iter := i } ∧
      G (headState P.tol st norms).mask := by
  obtain ⟨k1, k2⟩ := hG norms st.mask hst hb
  refine ⟨?_, k2⟩
  simp only [headState]
  rw [k1]

theorem lobLoop_settings {eig : EigSolver α} {P : LobParams α} {c : Option (Arr2 α)} {t : α} {G : List Bool → Prop}
    (hG : ∀ norms mask, G mask → (updateMask P.tol norms mask).count true ≠ 0 →
      updateMask t norms mask = updateMask P.tol norms mask ∧ G (updateMask P.tol norms mask))
    (n m : Nat) (st : LobState α) (hi : st.iter = n) (hst : G st.mask) {s' : LobState α} {o' : Option LinalgError}
    (h : lobLoop eig { P with tol := t } c (n + m) { st with iter := n + m } = .ok (s', o')) :
    ∃ s o, lobLoop eig P c n st = .ok (s, o) ∧
      Sooner (P.tol = t) (st.hist.length + 1 + n) s.hist s'.hist s.best s'.best o o' := by
  induction n generalizing st with
  | zero =>
    obtain ⟨r, norms, hr⟩ : ∃ r norms, lobResidual st = .ok (r, norms) := by
      cases lobLoop_pass.1 h with
      | stop r norms hr => exact ⟨r, norms, hr⟩
      | fail r norms hr => exact ⟨r, norms, hr⟩
      | next r norms hr => exact ⟨r, norms, hr⟩
    exact lobLoop_settings_stop _ _ _ hi h r norms hr (.inr hi)
  | succ n ih =>
    cases lobLoop_pass.1 h with
    | stop r norms hr hs h1 h2 =>
      by_cases hb : (headState P.tol st norms).blockSize = 0
      · exact lobLoop_settings_stop _ _ _ hi h r norms hr (.inl hb)
      · exfalso
        obtain ⟨k, -⟩ := headState_settings hG hst (n + 1 + m) hb
        rcases hs with hs | hs
        · simp only at hs
          rw [k] at hs
          exact hb hs
        · simp only at hs; omega
    | fail r norms hr hb' hi' hN e ht h1 h2 =>
      by_cases hb : (headState P.tol st norms).blockSize = 0
      · exact lobLoop_settings_stop _ _ _ hi h r norms hr (.inl hb)
      · obtain ⟨k, -⟩ := headState_settings hG hst (n + 1 + m) hb
        simp only at ht h1
        rw [k] at ht h1
        rcases lobTail_settings _ _ ht with ⟨e', q1, q2⟩ | ⟨s, q1, -⟩
        · injection q1 with q1
          subst q1 h1 h2
          refine ⟨_, _, lobLoop_pass.2 (.fail r norms hr hb (by omega) (Nat.succ_pos _) e q2 rfl rfl), ?_⟩
          exact ⟨by simp [headState], st.hist, _, _, [], rfl, rfl, rfl, rfl, fun _ => rfl, fun _ => rfl, fun e h => ⟨rfl, h⟩,
            fun _ _ => ⟨rfl, rfl⟩⟩
        · cases q1
    | next r norms hr hb' hi' N' hN s1 ht hl =>
      by_cases hb : (headState P.tol st norms).blockSize = 0
      · exact lobLoop_settings_stop _ _ _ hi h r norms hr (.inl hb)
      · obtain ⟨k, kG⟩ := headState_settings hG hst (n + 1 + m) hb
        simp only at ht
        rw [k] at ht
        rcases lobTail_settings _ _ ht with ⟨e', q1, q2⟩ | ⟨s, q1, q2, q3⟩
        · cases q1
        · injection q1 with q1
          obtain rfl : N' = n + m := by omega
          subst q1
          have e1 : n + 1 + m - 1 = n + m := by omega
          rw [e1] at hl
          have hf := lobTail_frame q3
          obtain ⟨s2, o, l1, ⟨l0, pre, it, it', post, l2, l3, l4, l5, l6, l7, l8, l9⟩⟩ := ih s (by rw [q2]; show st.iter - 1 = n; omega)
            (by rw [hf.2.2.1]; exact kG) hl
          refine ⟨s2, o, lobLoop_pass.2 (.next r norms hr hb (by omega) n rfl s q3 l1), by rw [hf.1] at l0; simp only [headState, List.length_append, List.length_singleton] at l0; omega, pre, it, it', post, l2, l3, l4, l5,
            l6, l7, l8, fun e hl => l9 e ?_⟩
          rw [hf.1]
          have : (headState P.tol st norms).hist.length = st.hist.length + 1 := by simp [headState]
          omega

theorem lobLoop_best {eig : EigSolver α} {P : LobParams α} {c : Option (Arr2 α)} {N : Nat} {st s : LobState α}
    {o : Option LinalgError} (h : lobLoop eig P c N st = .ok (s, o)) : ∃ b, s.best = some b := by
  obtain ⟨-, -, h1, -⟩ := lobLoop_rule (fun _ => True) (fun st _ _ => ∃ b, st.best = some b)
    (fun st st' r norms _ h => by
      obtain ⟨-, rfl⟩ := lobHead_inv h
      cases hb : st.best with
      | none => exact ⟨_, rfl⟩
      | some b => simp only [updateBest]; split_ifs <;> exact ⟨_, rfl⟩)
    (fun _ _ _ _ _ _ _ _ => trivial) trivial h
  exact h1

/-- The result for the best pairs and the way the loop ended. -/
def resultOf (b : Lobpcg α) : Option LinalgError → LobpcgResult α
  | none => .ok b
  | some e => .error (e, some b)

theorem lobpcgRun_settings {eig : EigSolver α} {P : LobParams α} {t : α} {G : List Bool → Prop}
    (hG : ∀ norms mask, G mask → (updateMask P.tol norms mask).count true ≠ 0 →
      updateMask t norms mask = updateMask P.tol norms mask ∧ G (updateMask P.tol norms mask))
    {x0 : Arr2 α} (hx : G (List.replicate x0.nc true)) {m m' : Nat} (hm : m ≤ m') {res' : LobpcgResult α}
    {hist' : List (Iterate α)} (h : lobpcgRun eig { P with tol := t } x0 m' = .ok (res', hist')) :
    ∃ res hist, lobpcgRun eig P x0 m = .ok (res, hist) ∧
      ((hist = [] ∧ hist' = [] ∧ res = res' ∧ ∃ e, res = .error (e, none)) ∨
        ∃ b b' o o', res = resultOf b o ∧ res' = resultOf b' o' ∧
          Sooner (P.tol = t) (1 + min (x0.nr * 10) m) hist hist' (some b) (some b') o o') := by
  unfold lobpcgRun at h ⊢
  simp only at h ⊢
  split_ifs at h ⊢ with hthin
  · injection h with h
    simp only [Prod.mk.injEq] at h
    exact ⟨_, _, rfl, .inl ⟨rfl, h.2.symm, h.1, _, rfl⟩⟩
  rw [bind_eq_ok] at h
  obtain ⟨c, hc, h⟩ := h
  rw [hc, ok_bind]
  simp only [bind_eq_ok] at h
  obtain ⟨x1, h1, q, h2, h⟩ := h
  have h1' : P.constrain c x0 = .ok x1 := h1
  rw [h1', ok_bind, h2, ok_bind]
  rcases q with e | ⟨x2, l⟩
  · injection h with h
    simp only [Prod.mk.injEq] at h
    exact ⟨_, _, rfl, .inl ⟨rfl, h.2.symm, h.1, _, rfl⟩⟩
  simp only [bind_eq_ok] at h
  obtain ⟨ax, h3, xax, h4, q, h5, h⟩ := h
  have h3' : P.apply 0 x2 = .ok ax := h3
  simp only
  rw [h3', ok_bind, h4, ok_bind, h5, ok_bind]
  rcases q with e | ⟨lambda, eigBlock⟩
  · injection h with h
    simp only [Prod.mk.injEq] at h
    exact ⟨_, _, rfl, .inl ⟨rfl, h.2.symm, h.1, _, rfl⟩⟩
  simp only [bind_eq_ok] at h
  obtain ⟨x, h6, ax', h7, ⟨s', o'⟩, h8, h⟩ := h
  simp only
  rw [h6, ok_bind, h7, ok_bind]
  obtain ⟨d, hd⟩ : ∃ d, min (x0.nr * 10) m' = min (x0.nr * 10) m + d := ⟨_, (Nat.add_sub_of_le (by omega)).symm⟩
  rw [hd] at h8
  obtain ⟨s, o, k1, k2⟩ := lobLoop_settings hG (min (x0.nr * 10) m) d
    ⟨lambda, x, ax', List.replicate x0.nc true, none, x0.nc, Arr2.eye x0.nc x0.nc, none, true, min (x0.nr * 10) m,
      1, none, []⟩ rfl hx h8
  rw [k1, ok_bind]
  obtain ⟨b, hb⟩ := lobLoop_best k1
  simp only at h ⊢
  rw [hb]
  rcases hb' : s'.best with _ | b'
  · rw [hb'] at h
    cases h
  rw [hb'] at h
  simp only at h
  rw [hb, hb'] at k2
  simp only [List.length_nil, Nat.zero_add] at k2
  refine ⟨resultOf b o, s.hist, ?_, .inr ⟨b, b', o, o', rfl, ?_, ?_⟩⟩
  · cases o <;> rfl
  · cases o' <;> (injection h with h; simp only [Prod.mk.injEq] at h; exact h.1.symm)
  · have : hist' = s'.hist := by cases o' <;> (injection h with h; simp only [Prod.mk.injEq] at h; exact h.2.symm)
    rw [this]
    exact k2

/-- **C127**: allowing more iterations continues the same run. The iterates of the run with fewer iterations are the first
ones of the run with more; if it did not use up its iterations, the outcome is the same; and an error stays an error. -/
theorem C127_iterations (eig : EigSolver α) (P : LobParams α) (x0 : Arr2 α) {m m' : Nat} (hm : m ≤ m')
    {res' : LobpcgResult α} {hist' : List (Iterate α)} (h : lobpcgRun eig P x0 m' = .ok (res', hist')) :
    ∃ res hist, lobpcgRun eig P x0 m = .ok (res, hist) ∧ hist = hist'.take (1 + min (10 * x0.nr) m) ∧
      (hist.length < 1 + min (10 * x0.nr) m → res = res' ∧ hist = hist') ∧ ∀ e, res = .error e → res' = .error e := by
  obtain ⟨res, hist, h1, h2⟩ := lobpcgRun_settings (P := P) (t := P.tol) (G := fun _ => True)
    (fun _ _ _ _ => ⟨rfl, trivial⟩) trivial hm h
  refine ⟨res, hist, h1, ?_⟩
  rw [Nat.mul_comm x0.nr] at h2
  rcases h2 with ⟨rfl, rfl, rfl, -⟩ | ⟨b, b', o, o', rfl, rfl, ⟨k0, pre, it, it', post, k1, k2, -, -, k3, k4, k5, k6⟩⟩
  · exact ⟨by simp, fun _ => ⟨rfl, rfl⟩, fun _ h => h⟩
  · obtain rfl := k3 rfl
    have hl : hist.length = pre.length + 1 := by rw [k1]; simp
    refine ⟨?_, fun hlt => ?_, fun e he => ?_⟩
    · rcases k0.lt_or_eq with hlt | heq
      · obtain ⟨rfl, -⟩ := k6 rfl hlt
        rw [k2, ← k1, List.take_of_length_le hlt.le]
      · rw [← heq, k2, hl, k1]
        rw [show pre ++ it :: post = (pre ++ [it]) ++ post by simp]
        rw [List.take_left' (by simp)]
    · obtain ⟨rfl, rfl⟩ := k6 rfl hlt
      have := k4 rfl
      simp only [Option.some.injEq] at this
      subst this
      exact ⟨rfl, by rw [k1, k2]⟩
    · cases o with
      | none => cases he
      | some e' =>
        obtain ⟨rfl, rfl⟩ := k5 e' rfl
        have := k4 rfl
        simp only [Option.some.injEq] at this
        subst this
        exact he

/-- **C127**: more iterations cannot make the returned residual norms larger, as long as no NaNs appear. -/
theorem C127_no_worse [LawfulLe α] [LawfulLt α] (eig : EigSolver α) (P : LobParams α) (x0 : Arr2 α) {m m' : Nat}
    (hm : m ≤ m') {res res' : LobpcgResult α} {hist hist' : List (Iterate α)}
    (h : lobpcgRun eig P x0 m = .ok (res, hist)) (h' : lobpcgRun eig P x0 m' = .ok (res', hist'))
    (hn : ∀ it ∈ hist', isNaN (sumList it.pairs.rnorm) = false) {b b' : Lobpcg α} (hb : Returned res b)
    (hb' : Returned res' b') : NdFloat.le (sumList b'.rnorm) (sumList b.rnorm) = true := by
  obtain ⟨r, l, h1, h2, -⟩ := C127_iterations eig P x0 hm h'
  rw [h] at h1
  injection h1 with h1
  simp only [Prod.mk.injEq] at h1
  obtain ⟨rfl, rfl⟩ := h1
  obtain ⟨⟨it, hit, rfl⟩, -⟩ := C42_best_iterate eig P x0 m res hist h b hb
  exact (C42_best_iterate eig P x0 m' res' hist' h' b' hb').2 hn it (List.mem_of_mem_take (h2 ▸ hit))

/-- **C127**: for a single vector, a smaller tolerance continues the same run as well. (For a block it does not: pairs
which are locked later change the directions of the others.) -/
theorem C127_tolerance (eig : EigSolver α) (P : LobParams α) (x0 : Arr2 α) (hx : x0.nc ≤ 1) (t : α)
    (ht : ∀ x, NdFloat.lt P.tol x = true → NdFloat.lt t x = true) {m m' : Nat} (hm : m ≤ m')
    {res' : LobpcgResult α} {hist' : List (Iterate α)}
    (h : lobpcgRun eig { P with tol := t } x0 m' = .ok (res', hist')) :
    ∃ res hist, lobpcgRun eig P x0 m = .ok (res, hist) ∧ hist.map Iterate.pairs <+: hist'.map Iterate.pairs ∧
      ∀ e, res = .error e → res' = .error e := by
  obtain ⟨res, hist, h1, h2⟩ := lobpcgRun_settings (P := P) (t := t) (G := fun mask => mask.length ≤ 1)
    (fun norms mask hmask hcount => by
      rcases mask with _ | ⟨a, _ | ⟨b, mask⟩⟩
      · simp [updateMask] at hcount
      · rcases norms with _ | ⟨x, norms⟩
        · simp [updateMask] at hcount
        · simp only [updateMask, List.zipWith_cons_cons, List.zipWith_nil_right] at hcount ⊢
          by_cases hlt : NdFloat.lt P.tol x = true
          · rw [hlt, ht x hlt]; exact ⟨rfl, by simp⟩
          · simp [hlt] at hcount
      · simp at hmask)
    (by simpa using hx) hm h
  refine ⟨res, hist, h1, ?_⟩
  rcases h2 with ⟨rfl, rfl, rfl, -⟩ | ⟨b, b', o, o', rfl, rfl, ⟨-, pre, it, it', post, rfl, rfl, k3, -, -, k4, k5, -⟩⟩
  · exact ⟨by simp, fun _ h => h⟩
  · refine ⟨⟨post.map Iterate.pairs, by simp [k3]⟩, fun e he => ?_⟩
    cases o with
    | none => cases he
    | some e' =>
      obtain ⟨rfl, rfl⟩ := k5 e' rfl
      have := k4 rfl
      simp only [Option.some.injEq] at this
      subst this
      exact he

/-- **C127**: if no number exceeds the tolerance, as for a NaN or an infinity, `lobpcg` stops at the first iterate and
reports success, whatever its residuals are. -/
theorem C127_immediate (eig : EigSolver α) (P : LobParams α) (x0 : Arr2 α)
    (ht : ∀ x, NdFloat.lt P.tol x = false) (m : Nat) {res : LobpcgResult α} {hist : List (Iterate α)}
    (h : lobpcgRun eig P x0 m = .ok (res, hist)) :
    (∃ e, res = .error (e, none)) ∨ ∃ it, hist = [it] ∧ res = .ok it.pairs := by
  rcases lobpcgRun_inv h with ⟨e, -, h1, -⟩ | ⟨c, st0, st, o, b, hs, hl, hb, rfl, rfl⟩
  · exact .inl ⟨e, h1⟩
  · right
    obtain ⟨x1, x2, l, ax, xax, lambda, eigBlock, x, ax', -, -, -, -, -, -, -, -, -, rfl⟩ := hs.run
    have hmask : ∀ norms : List α, ∀ mask, (updateMask P.tol norms mask).count true = 0 := by
      intro norms mask
      rw [List.count_eq_zero]
      intro hm
      simp only [updateMask, List.mem_iff_getElem?] at hm
      obtain ⟨i, hi⟩ := hm
      rw [List.getElem?_zipWith] at hi
      cases h1 : norms[i]? with
      | none => simp [h1] at hi
      | some a =>
        cases h2 : mask[i]? with
        | none => simp [h1, h2] at hi
        | some b => simp [h1, h2, ht] at hi
    cases lobLoop_pass.1 hl with
    | stop r norms hr hs h1 h2 =>
      subst h1 h2
      refine ⟨_, rfl, ?_⟩
      simp only [headState, updateBest, Option.some.injEq] at hb
      rw [← hb]
    | fail r norms hr hb' => exact absurd (hmask _ _) hb'
    | next r norms hr hb' => exact absurd (hmask _ _) hb'

end LinfaLinalg
