import Verif.Proofs.LobpcgShape
import Verif.Props.Sort

/-! # `lobpcg` does not panic

A generic argument about shapes, for any scalar type. -/

set_option linter.unusedSectionVars false

namespace LinfaLinalg

variable {α : Type} [Zero α] [One α] [Add α] [Sub α] [Mul α] [Div α] [Neg α] [NdFloat α]

/-- The computation returns a value satisfying `Q`, unless it runs out of fuel. -/
def Tot {β : Type} (m : M β) (Q : β → Prop) : Prop := wp m Q fun e => e = .fuel

section
variable {β γ : Type}

theorem Tot.ok {Q : β → Prop} {b : β} (h : Q b) : Tot (.ok b) Q := h

theorem Tot.bind {m : M β} {f : β → M γ} {Q : β → Prop} {R : γ → Prop} (h : Tot m Q)
    (hf : ∀ b, Q b → Tot (f b) R) : Tot (m >>= f) R := by
  unfold Tot at *
  rw [wp_bind]
  exact wp_mono h hf (fun _ h => h)

theorem Tot.eq {m : M β} {Q : β → Prop} (h : ∃ b, m = .ok b ∧ Q b) : Tot m Q := by
  obtain ⟨b, rfl, hb⟩ := h
  exact hb

theorem Tot.mono {m : M β} {Q R : β → Prop} (h : Tot m Q) (hQ : ∀ b, Q b → R b) : Tot m R :=
  wp_mono h hQ (fun _ h => h)

theorem Tot.cases {m : M β} {Q : β → Prop} (h : Tot m Q) :
    (∃ b, m = .ok b ∧ Q b) ∨ m = .error .fuel := by
  cases m with
  | ok b => exact Or.inl ⟨b, rfl, h⟩
  | error e => exact Or.inr (congrArg _ h)

/-- A computation which returns, or returns an error value, inspected by the caller. -/
theorem Tot.catch_ok {m : M β} {Q : β → Prop} (h : Tot m Q) :
    Tot (catchM m) fun o => ∃ b, o = .ok b ∧ Q b := by
  rcases h.cases with ⟨b, rfl, hb⟩ | rfl
  · exact ⟨b, rfl, hb⟩
  · exact (rfl : Fail.fuel = Fail.fuel)

theorem tot_catch {m : M β} {Q : β → Prop} (h : (∃ b, m = .ok b ∧ Q b) ∨ ∃ e, m = .error (.err e)) :
    Tot (catchM m) fun o => ∀ b, o = .ok b → Q b := by
  rcases h with ⟨b, rfl, hb⟩ | ⟨e, rfl⟩
  · intro b' hb'
    injection hb' with hb'
    subst hb'
    exact hb
  · intro b' hb'
    cases hb'
end

section
variable {n m k b c : Nat}

theorem dot_shape {x y : Arr2 α} (hx : HasShape x n m) (hy : HasShape y m k) :
    ∃ z, x.dot y = .ok z ∧ HasShape z n k :=
  ⟨_, Arr2.dot_ok (hx.2.trans hy.1.symm), hx.1, hy.2⟩

theorem shape_t {x : Arr2 α} (hx : HasShape x n m) : HasShape x.t m n := ⟨hx.2, hx.1⟩

theorem add_shape {x y : Arr2 α} (hx : HasShape x n m) (hy : HasShape y n m) :
    ∃ z, x.add y = .ok z ∧ HasShape z n m := by
  unfold Arr2.add
  rw [if_pos ⟨hx.1.trans hy.1.symm, hx.2.trans hy.2.symm⟩]
  exact ⟨_, rfl, hx⟩

theorem sub_shape {x y : Arr2 α} (hx : HasShape x n m) (hy : HasShape y n m) :
    ∃ z, x.sub y = .ok z ∧ HasShape z n m := by
  unfold Arr2.sub
  rw [if_pos ⟨hx.1.trans hy.1.symm, hx.2.trans hy.2.symm⟩]
  exact ⟨_, rfl, hx⟩

theorem hcat_shape {x y : Arr2 α} (hx : HasShape x n m) (hy : HasShape y n k) :
    ∃ z, x.hcat y = .ok z ∧ HasShape z n (m + k) := by
  unfold Arr2.hcat
  rw [if_pos (hx.1.trans hy.1.symm)]
  exact ⟨_, rfl, hx.1, by simp only [hx.2, hy.2]⟩

theorem vcat_shape {x y : Arr2 α} (hx : HasShape x n m) (hy : HasShape y k m) :
    ∃ z, x.vcat y = .ok z ∧ HasShape z (n + k) m := by
  unfold Arr2.vcat
  rw [if_pos (hx.2.trans hy.2.symm)]
  exact ⟨_, rfl, by simp only [hx.1, hy.1], hx.2⟩

theorem slice_shape {x : Arr2 α} (hx : HasShape x n m) {r0 r1 c1 : Nat} (h0 : r0 ≤ r1) (h1 : r1 ≤ n)
    (h2 : c1 ≤ m) : ∃ z, x.slice r0 r1 0 c1 = .ok z ∧ HasShape z (r1 - r0) c1 := by
  refine ⟨_, Arr2.slice_ok h0 (by rw [hx.1]; exact h1) (Nat.zero_le _) (by rw [hx.2]; exact h2), rfl, rfl⟩

theorem scaleCols_shape {x : Arr2 α} {s : Arr1 α} (hx : HasShape x n m) (hs : s.len = m) :
    ∃ z, x.scaleCols s = .ok z ∧ HasShape z n m := by
  unfold Arr2.scaleCols
  rw [if_pos (hx.2.trans hs.symm)]
  exact ⟨_, rfl, hx⟩

theorem mask_shape {x : Arr2 α} {mask : List Bool} (hx : HasShape x n k) (hm : mask.length = k) :
    ∃ z, ndarrayMask x mask = .ok z ∧ HasShape z n (mask.count true) := by
  unfold ndarrayMask
  rw [if_pos (hm.trans hx.2.symm)]
  unfold Arr2.selectCols
  rw [if_pos]
  · exact ⟨_, rfl, hx.1, maskIndices_length mask⟩
  · rw [List.all_eq_true]
    intro j hj
    simp only [maskIndices, List.mem_filter, List.mem_range] at hj
    rw [decide_eq_true_eq, hx.2, ← hm]
    exact hj.1

theorem genMatMul_shape {p q : α} {x y v : Arr2 α} (hx : HasShape x n m) (hy : HasShape y m k)
    (hv : HasShape v n k) : ∃ z, genMatMul p x y q v = .ok z ∧ HasShape z n k := by
  unfold genMatMul
  rw [if_pos ⟨hx.2.trans hy.1.symm, hx.1.trans hv.1.symm, hy.2.trans hv.2.symm⟩]
  exact ⟨_, rfl, hv⟩

theorem symmetrize_shape {x : Arr2 α} (hx : HasShape x n n) :
    ∃ z, symmetrize x = .ok z ∧ HasShape z n n := by
  obtain ⟨s, h1, h2⟩ := add_shape hx (shape_t hx)
  unfold symmetrize
  rw [h1, ok_bind]
  exact ⟨_, rfl, h2⟩

theorem cholesky_shape {x : Arr2 α} (hx : HasShape x n n) :
    (∃ l, cholesky x = .ok l ∧ HasShape l n n) ∨ cholesky x = .error (.err .notPositiveDefinite) := by
  rcases cholesky_cases x (hx.1.trans hx.2.symm) with ⟨l, h1, h2, -⟩ | ⟨h1, -⟩
  · exact Or.inl ⟨_, h1, h2.nr.trans hx.1, h2.nc.trans hx.2⟩
  · exact Or.inr h1

theorem solve_shape {l x : Arr2 α} (hl : HasShape l n n) (hx : HasShape x n m) (uplo : UPLO) :
    ∃ z, solveTriangular l x uplo = .ok z ∧ HasShape z n m := by
  obtain ⟨z, h1, h2⟩ := (C06_shape_errors l x uplo).2.2 (hl.1.trans hl.2.symm) (hx.1.trans hl.1.symm)
  exact ⟨z, h1, h2.1.trans hx.1, h2.2.trans hx.2⟩

theorem orthonormalize_shape {x : Arr2 α} (hx : HasShape x n m) :
    (∃ r, orthonormalize x = .ok r ∧ HasShape r.1 n m ∧ HasShape r.2 m m) ∨
      ∃ e, orthonormalize x = .error (.err e) := by
  obtain ⟨g, h1, sg⟩ := dot_shape (shape_t hx) hx
  unfold orthonormalize
  rw [h1, ok_bind]
  rcases cholesky_shape sg with ⟨l, hl, sl⟩ | hl
  · obtain ⟨z, hz, sz⟩ := solve_shape sl (shape_t hx) .lower
    rw [hl, ok_bind, hz, ok_bind]
    exact Or.inl ⟨_, rfl, shape_t sz, sl⟩
  · rw [hl, error_bind]
    exact Or.inr ⟨_, rfl⟩

theorem applyConstraints_shape {v l y : Arr2 α} (hv : HasShape v n m) (hl : HasShape l c c)
    (hy : HasShape y n c) : ∃ z, applyConstraints v l y = .ok z ∧ HasShape z n m := by
  obtain ⟨g, h1, sg⟩ := dot_shape (shape_t hy) hv
  obtain ⟨u, h2, su⟩ := solve_shape hl sg .lower
  obtain ⟨z, h3, sz⟩ := genMatMul_shape (p := -1) (q := 1) hy su hv
  unfold applyConstraints
  rw [h1, ok_bind, h2]
  exact ⟨z, h3, sz⟩

theorem block2_shape {x y z : Arr2 α} (hx : HasShape x n n) (hy : HasShape y n m)
    (hz : HasShape z m m) : ∃ w, block2 x y z = .ok w ∧ HasShape w (n + m) (n + m) := by
  obtain ⟨r0, h0, s0⟩ := hcat_shape hx hy
  obtain ⟨r1, h1, s1⟩ := hcat_shape (shape_t hy) hz
  unfold block2
  rw [h0, ok_bind, h1, ok_bind]
  exact vcat_shape s0 s1

theorem block3_shape {x y z u v w : Arr2 α} (hx : HasShape x n n) (hy : HasShape y n m)
    (hz : HasShape z n k) (hu : HasShape u m m) (hv : HasShape v m k) (hw : HasShape w k k) :
    ∃ r, block3 x y z u v w = .ok r ∧ HasShape r (n + m + k) (n + m + k) := by
  obtain ⟨a0, g0, t0⟩ := hcat_shape hx hy
  obtain ⟨r0, h0, s0⟩ := hcat_shape t0 hz
  obtain ⟨a1, g1, t1⟩ := hcat_shape (shape_t hy) hu
  obtain ⟨r1, h1, s1⟩ := hcat_shape t1 hv
  obtain ⟨a2, g2, t2⟩ := hcat_shape (shape_t hz) (shape_t hv)
  obtain ⟨r2, h2, s2⟩ := hcat_shape t2 hw
  obtain ⟨a3, g3, t3⟩ := vcat_shape s0 s1
  unfold block3
  rw [g0, ok_bind, h0, ok_bind, g1, ok_bind, h1, ok_bind, g2, ok_bind, h2, ok_bind, g3, ok_bind]
  exact vcat_shape t3 s2

end

/-- The eigensolver for the small problems returns, on every square matrix that is not empty, as many
values (none of them NaN) and vectors as it should, or else runs out of fuel. -/
def EigTotal (eig : EigSolver α) : Prop :=
  ∀ (s : Nat) (a : Arr2 α), 1 ≤ s → HasShape a s s →
    Tot (eig a) fun r => r.1.len = s ∧ NaNFree r.1 ∧ HasShape r.2 s s

theorem sortedEig_total [LawfulLe α] {eig : EigSolver α} (heig : EigTotal eig) {s size : Nat}
    {a : Arr2 α} {b : Option (Arr2 α)} (hs : 1 ≤ s) (ha : HasShape a s s)
    (hb : ∀ b', b = some b' → HasShape b' s s) (hsize : size ≤ s) (order : Order) :
    Tot (sortedEig eig a b size order) fun r => r.1.len = size ∧ HasShape r.2 s size := by
  unfold sortedEig
  refine Tot.bind (Q := fun r => r.1.len = s ∧ NaNFree r.1 ∧ HasShape r.2 s s) ?_ fun r hr => ?_
  · cases b with
    | none => exact heig s a hs ha
    | some b =>
      unfold generalizedEig
      refine (heig s b hs (hb b rfl)).bind fun r hr => ?_
      obtain ⟨v, hv, sv⟩ := scaleCols_shape (s := r.1.map fun x =>
        1 / NdFloat.sqrt (NdFloat.max x (NdFloat.ofRat gramFloor))) hr.2.2 hr.1
      obtain ⟨av, hav, sav⟩ := dot_shape ha sv
      obtain ⟨at_, hat, sat⟩ := dot_shape (shape_t sv) sav
      simp only
      rw [hv, ok_bind, hav, ok_bind, hat, ok_bind]
      refine (heig s at_ hs sat).bind fun r' hr' => ?_
      obtain ⟨w, hw, sw⟩ := dot_shape sv hr'.2.2
      rw [hw, ok_bind]
      exact Tot.ok ⟨hr'.1, hr'.2.1, sw⟩
  obtain ⟨vals, vecs⟩ := r
  obtain ⟨hl, hn, hsh⟩ := hr
  obtain ⟨v, w, σ, e, -, lv, sw, -⟩ := C33_sort_eig vals vecs s ⟨hsh.1, hsh.2.trans hl.symm⟩ hn order
  simp only at hl sw lv ⊢
  rw [e, ok_bind]
  simp only
  rw [if_neg (by rw [sw.1]; omega)]
  rw [hl] at lv sw
  obtain ⟨q, hq, sq⟩ := scaleCols_shape (s := (⟨w.nc, fun j => NdFloat.signum (w.get 0 j)⟩ : Arr1 α)) sw
    sw.2
  rw [hq, ok_bind]
  have hv' : v.slice 0 size = .ok ⟨size - 0, fun i => v.get (0 + i)⟩ := by
    unfold Arr1.slice
    rw [if_pos ⟨Nat.zero_le _, by rw [lv]; exact hsize⟩]
  rw [hv', ok_bind]
  obtain ⟨q', hq', sq'⟩ := slice_shape sq (Nat.zero_le s) le_rfl hsize
  rw [sq.1, hq', ok_bind]
  exact Tot.ok ⟨rfl, sq'⟩

/-- The closures of the caller return matrices of the shape they are given. -/
structure ParamsTotal (n : Nat) (P : LobParams α) : Prop where
  a : ∀ call y k, HasShape y n k → ∃ z, P.a call y = .ok z ∧ HasShape z n k
  m : ∀ y k, HasShape y n k → ∃ z, P.m y = .ok z ∧ HasShape z n k

/-- The constraint matrix and its Cholesky factor fit together. -/
def ConstraintShape (n : Nat) (P : LobParams α) (cholYY : Option (Arr2 α)) : Prop :=
  ∀ y c, P.y = some y → cholYY = some c → ∃ s, HasShape y n s ∧ HasShape c s s

/-- The shapes of the loop variables. -/
structure TotInv (n k : Nat) (st : LobState α) : Prop where
  sx : HasShape st.x n k
  sax : HasShape st.ax n k
  len : st.lambda.len = k
  mask : st.mask.length = k
  pap : ∀ p ap, st.pap = some (p, ap) → HasShape p n k ∧ HasShape ap n k
  gram : st.explicitGram = true

theorem constrain_shape {n m : Nat} {P : LobParams α} {cholYY : Option (Arr2 α)} {v : Arr2 α}
    (hc : ConstraintShape n P cholYY) (hv : HasShape v n m) :
    ∃ w, P.constrain cholYY v = .ok w ∧ HasShape w n m := by
  unfold LobParams.constrain
  cases hy : P.y with
  | none => exact ⟨v, rfl, hv⟩
  | some y =>
    cases hcc : cholYY with
    | none => exact ⟨v, rfl, hv⟩
    | some c =>
      obtain ⟨s, h1, h2⟩ := hc y c hy hcc
      exact applyConstraints_shape hv h2 h1

theorem lobHead_total {n k : Nat} {P : LobParams α} {st : LobState α} (h : TotInv n k st) :
    ∃ st' r norms, lobHead P st = .ok (st', r, norms) ∧ TotInv n k st' ∧ HasShape r n k ∧
      st'.blockSize = st'.mask.count true := by
  have sd : HasShape (Arr2.fromDiag st.lambda) k k := ⟨h.len, h.len⟩
  obtain ⟨lx, h1, s1⟩ := dot_shape h.sx sd
  obtain ⟨r, h2, s2⟩ := sub_shape h.sax s1
  unfold lobHead lobResidual
  rw [h1, ok_bind, h2, ok_bind, ok_bind]
  refine ⟨_, _, _, rfl, ⟨h.sx, h.sax, h.len, ?_, h.pap, h.gram⟩, s2, rfl⟩
  simp [updateMask, s2.2, h.mask]

theorem xrGram_total {n k b : Nat} {st : LobState α} {r ar : Arr2 α} (h : TotInv n k st)
    (hr : HasShape r n b) (har : HasShape ar n b) :
    ∃ g, xrGram st r ar = .ok g ∧ HasShape g.xax k k ∧ HasShape g.xar k b ∧ HasShape g.rar b b ∧
      HasShape g.xx k k ∧ HasShape g.rr b b ∧ HasShape g.xr k b := by
  obtain ⟨xar, h1, s1⟩ := dot_shape (shape_t h.sx) har
  obtain ⟨rar, h2, s2⟩ := dot_shape (shape_t hr) har
  obtain ⟨rar', h3, s3⟩ := symmetrize_shape s2
  obtain ⟨xax, h4, s4⟩ := dot_shape (shape_t h.sx) h.sax
  obtain ⟨xax', h5, s5⟩ := symmetrize_shape s4
  obtain ⟨xx, h6, s6⟩ := dot_shape (shape_t h.sx) h.sx
  obtain ⟨rr, h7, s7⟩ := dot_shape (shape_t hr) hr
  obtain ⟨xr, h8, s8⟩ := dot_shape (shape_t h.sx) hr
  unfold xrGram
  rw [h1, ok_bind, h2, ok_bind, if_pos h.gram, h3, ok_bind, h4, ok_bind, h5, ok_bind, h6, ok_bind, h7,
    ok_bind, h8, ok_bind]
  exact ⟨_, rfl, s5, s1, s3, s6, s7, s8⟩

theorem activePAP_total {n k : Nat} {mask : List Bool} {pap : Option (Arr2 α × Arr2 α)}
    (hm : mask.length = k) (h : ∀ p ap, pap = some (p, ap) → HasShape p n k ∧ HasShape ap n k) :
    Tot (activePAP mask pap) fun o => ∀ p ap, o = some (p, ap) →
      HasShape p n (mask.count true) ∧ HasShape ap n (mask.count true) := by
  rcases pap with _ | ⟨p, ap⟩
  · exact Tot.ok fun p ap h => by cases h
  obtain ⟨sp, sap⟩ := h p ap rfl
  obtain ⟨v, h1, s1⟩ := mask_shape sp hm
  obtain ⟨av, h2, s2⟩ := mask_shape sap hm
  unfold activePAP
  simp only
  rw [h1, ok_bind, h2, ok_bind]
  refine (tot_catch (orthonormalize_shape s1)).bind fun o ho => ?_
  rcases o with e | ⟨q, l⟩
  · exact Tot.ok fun p ap h => by cases h
  obtain ⟨sq, sl⟩ := ho _ rfl
  obtain ⟨w, h3, s3⟩ := solve_shape sl (shape_t s2) .lower
  simp only
  rw [h3]
  simp only [catchM, ok_bind]
  refine Tot.ok fun p ap h => ?_
  simp only [Option.some.injEq, Prod.mk.injEq] at h
  obtain ⟨rfl, rfl⟩ := h
  exact ⟨sq, shape_t s3⟩

theorem lobEig_total [LawfulLe α] {n k b : Nat} {eig : EigSolver α} (heig : EigTotal eig)
    {order : Order} {st : LobState α} {r ar : Arr2 α} {g : XRGram α} {pap : Option (Arr2 α × Arr2 α)}
    (hk : 1 ≤ k) (h : TotInv n k st) (hr : HasShape r n b) (hg : xrGram st r ar = .ok g)
    (har : HasShape ar n b)
    (hpap : ∀ p ap, pap = some (p, ap) → HasShape p n b ∧ HasShape ap n b) :
    Tot (lobEig eig order st r g pap) fun o => ∃ v, o.2 = .ok v ∧ v.1.len = k ∧
      ((o.1 = none ∧ HasShape v.2.1 (k + b) k) ∨
        ∃ p ap, o.1 = some (p, ap) ∧ pap = some (p, ap) ∧ HasShape v.2.1 (k + b + b) k) := by
  obtain ⟨g', hg', g1, g2, g3, g4, g5, g6⟩ := xrGram_total h hr har
  rw [hg] at hg'
  injection hg' with hg'
  subst hg'
  have h2 : Tot (eig2 eig order st g) fun v => v.1.len = k ∧ HasShape v.2.1 (k + b) k := by
    obtain ⟨a, ha, sa⟩ := block2_shape g1 g2 g3
    obtain ⟨b', hb, sb⟩ := block2_shape g4 g6 g5
    unfold eig2
    rw [ha, ok_bind, hb, ok_bind, h.sx.2]
    refine (sortedEig_total heig (by omega) sa (fun b'' h => by injection h with h; rw [← h]; exact sb)
      (by omega) order).bind fun r hr => ?_
    exact Tot.ok hr
  have h2' : Tot (do
      let v ← catchM (eig2 eig order st g)
      .ok (none, v) : M (Option (Arr2 α × Arr2 α) × Except LinalgError (Arr1 α × Arr2 α × Arr2 α)))
      fun o => ∃ v, o.2 = .ok v ∧ v.1.len = k ∧
      ((o.1 = none ∧ HasShape v.2.1 (k + b) k) ∨
        ∃ p ap, o.1 = some (p, ap) ∧ pap = some (p, ap) ∧ HasShape v.2.1 (k + b + b) k) := by
    refine h2.catch_ok.bind fun o ho => ?_
    obtain ⟨v, rfl, h3, h4⟩ := ho
    exact Tot.ok ⟨v, rfl, h3, Or.inl ⟨rfl, h4⟩⟩
  unfold lobEig
  rcases pap with _ | ⟨p, ap⟩
  · simp only [ok_bind]
    exact h2'
  · obtain ⟨sp, sap⟩ := hpap p ap rfl
    have h3 : Tot (eig3 eig order st r g p ap) fun v => v.1.len = k ∧ HasShape v.2.1 (k + b + b) k := by
      obtain ⟨xap, e1, s1⟩ := dot_shape (shape_t h.sx) sap
      obtain ⟨rap, e2, s2⟩ := dot_shape (shape_t hr) sap
      obtain ⟨pap, e3, s3⟩ := dot_shape (shape_t sp) sap
      obtain ⟨xp, e4, s4⟩ := dot_shape (shape_t h.sx) sp
      obtain ⟨rp, e5, s5⟩ := dot_shape (shape_t hr) sp
      obtain ⟨pap', e6, s6⟩ := symmetrize_shape s3
      obtain ⟨pp, e7, s7⟩ := dot_shape (shape_t sp) sp
      obtain ⟨a, ha, sa⟩ := block3_shape g1 g2 s1 g3 s2 s6
      obtain ⟨b', hb, sb⟩ := block3_shape g4 g6 s4 g5 s5 s7
      unfold eig3
      rw [e1, ok_bind, e2, ok_bind, e3, ok_bind, e4, ok_bind, e5, ok_bind, if_pos h.gram, e6, ok_bind, e7,
        ok_bind, ok_bind]
      simp only
      rw [ha, ok_bind, hb, ok_bind, h.sx.2]
      refine (sortedEig_total heig (by omega) sa (fun b'' h => by injection h with h; rw [← h]; exact sb)
        (by omega) order).bind fun r hr => ?_
      exact Tot.ok hr
    simp only
    refine h3.catch_ok.bind fun o ho => ?_
    obtain ⟨v, rfl, h4, h5⟩ := ho
    exact Tot.ok ⟨v, rfl, h4, Or.inr ⟨p, ap, rfl, rfl, h5⟩⟩

theorem updatePAP_total {n k b : Nat} {r ar vecs : Arr2 α} {pap : Option (Arr2 α × Arr2 α)}
    (hr : HasShape r n b) (har : HasShape ar n b)
    (h : (pap = none ∧ HasShape vecs (k + b) k) ∨
      ∃ p ap, pap = some (p, ap) ∧ HasShape p n b ∧ HasShape ap n b ∧ HasShape vecs (k + b + b) k) :
    ∃ o, updatePAP k b r ar vecs pap = .ok o ∧ HasShape o.1 n k ∧ HasShape o.2 n k := by
  rcases h with ⟨rfl, sv⟩ | ⟨p, ap, rfl, sp, sap, sv⟩
  · unfold updatePAP
    simp only
    rw [sv.1, sv.2]
    obtain ⟨al, h1, s1⟩ := slice_shape (r0 := k) (r1 := k + b) (c1 := k) sv (by omega) le_rfl le_rfl
    rw [Nat.add_sub_cancel_left] at s1
    obtain ⟨p', h2, s2⟩ := dot_shape hr s1
    obtain ⟨ap', h3, s3⟩ := dot_shape har s1
    rw [h1, ok_bind, h2, ok_bind, h3, ok_bind]
    exact ⟨_, rfl, s2, s3⟩
  · unfold updatePAP
    simp only
    rw [sv.1, sv.2]
    obtain ⟨al, h1, s1⟩ := slice_shape (r0 := k) (r1 := k + b) (c1 := k) sv (by omega) (by omega) le_rfl
    obtain ⟨ga, h2, s2⟩ := slice_shape (r0 := k + b) (r1 := k + b + b) (c1 := k) sv (by omega) le_rfl le_rfl
    rw [Nat.add_sub_cancel_left] at s1 s2
    obtain ⟨ra, h3, s3⟩ := dot_shape hr s1
    obtain ⟨pg, h4, s4⟩ := dot_shape sp s2
    obtain ⟨p', h5, s5⟩ := add_shape s3 s4
    obtain ⟨ara, h6, s6⟩ := dot_shape har s1
    obtain ⟨apg, h7, s7⟩ := dot_shape sap s2
    obtain ⟨ap', h8, s8⟩ := add_shape s6 s7
    rw [h1, ok_bind, h2, ok_bind, h3, ok_bind, h4, ok_bind, h5, ok_bind, h6, ok_bind, h7, ok_bind, h8,
      ok_bind]
    exact ⟨_, rfl, s5, s8⟩

theorem lobTail_total [LawfulLe α] {n k : Nat} {eig : EigSolver α} (heig : EigTotal eig)
    {P : LobParams α} (hP : ParamsTotal n P) {cholYY : Option (Arr2 α)}
    (hc : ConstraintShape n P cholYY) {st : LobState α} (hk : 1 ≤ k) (h : TotInv n k st)
    (hb : st.blockSize = st.mask.count true) {r0 : Arr2 α} (hr0 : HasShape r0 n k) (norms : List α) :
    Tot (lobTail eig P cholYY st r0 norms) fun o => ∀ st', o = .ok st' → TotInv n k st' := by
  obtain ⟨v, h1, s1⟩ := mask_shape hr0 h.mask
  obtain ⟨w, h2, s2⟩ := hP.m v _ s1
  have h2' : P.precondition v = .ok w := by
    unfold LobParams.precondition
    rw [h2]
    simp only [unwrapM, ok_bind]
    rw [if_pos ⟨s2.1.trans s1.1.symm, s2.2.trans s1.2.symm⟩]
  obtain ⟨u, h3, s3⟩ := constrain_shape hc s2
  obtain ⟨xv, h4, s4⟩ := dot_shape (shape_t h.sx) s3
  obtain ⟨z, h5, s5⟩ := genMatMul_shape (p := -1) (q := 1) h.sx s4 s3
  unfold lobTail
  rw [h1, ok_bind, h2', ok_bind, h3, ok_bind, h4, ok_bind, h5, ok_bind]
  refine (tot_catch (orthonormalize_shape s5)).bind fun o ho => ?_
  rcases o with e | ⟨r, l⟩
  · exact Tot.ok fun st' h => by cases h
  obtain ⟨sr, -⟩ := ho _ rfl
  simp only at sr ⊢
  obtain ⟨ar, h6, s6⟩ := hP.a st.calls r _ sr
  have h6' : P.apply st.calls r = .ok ar := by
    unfold LobParams.apply
    rw [h6]; rfl
  rw [h6', ok_bind]
  generalize hst1 : ({ st with
      calls := st.calls + 1
      explicitGram := NdFloat.le (norms.foldl NdFloat.max NdFloat.negInf) _ || st.explicitGram } :
      LobState α) = st1
  have hI1 : TotInv n k st1 := by
    subst hst1
    exact ⟨h.sx, h.sax, h.len, h.mask, h.pap, by simp [h.gram]⟩
  have e1 : st1.mask = st.mask := by subst hst1; rfl
  have e2 : st1.blockSize = st.mask.count true := by subst hst1; exact hb
  obtain ⟨g, hg, -⟩ := xrGram_total hI1 sr s6
  rw [hg, ok_bind]
  refine (activePAP_total h.mask h.pap).bind fun pap hpap => ?_
  refine (lobEig_total heig hk hI1 sr hg s6 hpap).bind fun o2 ho2 => ?_
  obtain ⟨pap', res⟩ := o2
  obtain ⟨⟨lambda, vecs, gram⟩, hv, hl, hcase⟩ := ho2
  simp only at hv hl hcase
  subst hv
  simp only
  have hvnc : vecs.nc = k := by
    rcases hcase with ⟨-, hs⟩ | ⟨_, _, -, -, hs⟩ <;> exact hs.2
  have hvnr : k ≤ vecs.nr := by
    rcases hcase with ⟨-, hs⟩ | ⟨_, _, -, -, hs⟩ <;> rw [hs.1] <;> omega
  have hvs : HasShape vecs vecs.nr k := ⟨rfl, hvnc⟩
  rw [h.sx.2, hvnc, hb]
  obtain ⟨tau, h7, s7⟩ := slice_shape hvs (Nat.zero_le k) hvnr (le_refl k)
  obtain ⟨⟨p, ap⟩, h8, s8, s8'⟩ := updatePAP_total (k := k) (vecs := vecs) (pap := pap') sr s6 (by
    rcases hcase with ⟨h', hs⟩ | ⟨p, ap, h', h'', hs⟩
    · exact Or.inl ⟨h', hs⟩
    · exact Or.inr ⟨p, ap, h', (hpap p ap h'').1, (hpap p ap h'').2, hs⟩)
  obtain ⟨xt, h9, s9⟩ := dot_shape h.sx s7
  obtain ⟨x, h10, s10⟩ := add_shape s9 s8
  obtain ⟨axt, h11, s11⟩ := dot_shape h.sax s7
  obtain ⟨ax, h12, s12⟩ := add_shape s11 s8'
  rw [h7, ok_bind, h8, ok_bind, h9, ok_bind, h10, ok_bind, h11, ok_bind, h12, ok_bind]
  refine Tot.ok fun st' hst' => ?_
  injection hst' with hst'
  subst hst'
  refine ⟨s10, s12, hl, h.mask, ?_, by simp [h.gram]⟩
  intro p1 ap1 h'
  simp only [Option.some.injEq, Prod.mk.injEq] at h'
  obtain ⟨rfl, rfl⟩ := h'
  exact ⟨s8, s8'⟩

theorem lobLoop_total [LawfulLe α] {n k : Nat} {eig : EigSolver α} (heig : EigTotal eig)
    {P : LobParams α} (hP : ParamsTotal n P) {cholYY : Option (Arr2 α)}
    (hc : ConstraintShape n P cholYY) (hk : 1 ≤ k) (i : Nat) {st : LobState α} (h : TotInv n k st) :
    Tot (lobLoop eig P cholYY i st) fun o => ∃ b, o.1.best = some b := by
  induction i generalizing st with
  | zero =>
    obtain ⟨st', r, norms, hh, hI, hr, hb⟩ := lobHead_total (P := P) h
    obtain ⟨-, hst⟩ := lobHead_inv hh
    have hbest : ∃ b, st'.best = some b := by
      rw [hst]
      simp only [updateBest]
      split
      · exact ⟨_, rfl⟩
      · split_ifs <;> exact ⟨_, rfl⟩
    unfold lobLoop
    rw [hh, ok_bind]
    simp only
    split_ifs
    · exact Tot.ok hbest
    · exact (rfl : Fail.fuel = Fail.fuel)
  | succ i ih =>
    obtain ⟨st', r, norms, hh, hI, hr, hb⟩ := lobHead_total (P := P) h
    obtain ⟨-, hst⟩ := lobHead_inv hh
    have hbest : ∃ b, st'.best = some b := by
      rw [hst]
      simp only [updateBest]
      split
      · exact ⟨_, rfl⟩
      · split_ifs <;> exact ⟨_, rfl⟩
    unfold lobLoop
    rw [hh, ok_bind]
    simp only
    split_ifs
    · exact Tot.ok hbest
    · refine (lobTail_total heig hP hc hk hI hb hr norms).bind fun o ho => ?_
      rcases o with e | st2
      · exact Tot.ok hbest
      · exact ih (ho st2 rfl)

/-- With well-behaved closures and constraints of full rank, `lobpcg` never panics. -/
theorem lobpcgRun_total [LawfulLe α] {n k : Nat} {eig : EigSolver α} (heig : EigTotal eig)
    {P : LobParams α} (hP : ParamsTotal n P) {x0 : Arr2 α} (hx0 : HasShape x0 n k) (hk : 1 ≤ k)
    (hy : ∀ y, P.y = some y → y.nr = n ∧ ∀ g, y.t.dot y = .ok g → ∃ c, cholesky g = .ok c)
    (maxiter : Nat) : Tot (lobpcgRun eig P x0 maxiter) fun _ => True := by
  unfold lobpcgRun
  simp only
  split_ifs with hthin
  · exact Tot.ok trivial
  refine Tot.bind (Q := fun c => ConstraintShape n P c) ?_ fun c hc => ?_
  · cases hyc : P.y with
    | none => exact Tot.ok fun y c h => by rw [hyc] at h; cases h
    | some y =>
      obtain ⟨h1, h2⟩ := hy y hyc
      have sy : HasShape y n y.nc := ⟨h1, rfl⟩
      obtain ⟨g, hg, sg⟩ := dot_shape (shape_t sy) sy
      obtain ⟨c, hcc⟩ := h2 g hg
      simp only
      rw [hg, ok_bind, hcc]
      refine Tot.ok ?_
      intro y' c' h' h''
      rw [hyc] at h'
      simp only [Option.some.injEq] at h' h''
      subst h' h''
      rcases cholesky_shape sg with ⟨l, hl, sl⟩ | hl
      · rw [hcc] at hl
        injection hl with hl
        subst hl
        exact ⟨_, sy, sl⟩
      · rw [hcc] at hl; cases hl
  obtain ⟨x1, h1, s1⟩ := constrain_shape hc hx0
  rw [h1, ok_bind]
  refine (tot_catch (orthonormalize_shape s1)).bind fun o ho => ?_
  rcases o with e | ⟨x2, l⟩
  · exact Tot.ok trivial
  obtain ⟨s2, -⟩ := ho _ rfl
  obtain ⟨ax, h3, s3⟩ := hP.a 0 x2 _ s2
  have h3' : P.apply 0 x2 = .ok ax := by
    unfold LobParams.apply
    rw [h3]; rfl
  obtain ⟨xax, h4, s4⟩ := dot_shape (shape_t s2) s3
  simp only
  rw [h3', ok_bind, h4, ok_bind]
  have := (sortedEig_total heig hk s4 (b := none) (fun _ h => by cases h) (le_refl k) P.order).catch_ok
  rw [hx0.2]
  refine this.bind fun o2 ho2 => ?_
  obtain ⟨⟨lambda, eb⟩, rfl, hl, seb⟩ := ho2
  simp only
  obtain ⟨x, h5, s5⟩ := dot_shape s2 seb
  obtain ⟨ax', h6, s6⟩ := dot_shape s3 seb
  rw [h5, ok_bind, h6, ok_bind]
  refine (lobLoop_total heig hP hc hk _ (st := _) ⟨s5, s6, hl, by simp, fun _ _ h => by simp at h, rfl⟩).bind
    fun o3 ho3 => ?_
  obtain ⟨b, hb⟩ := ho3
  rw [hb]
  simp only
  split <;> exact Tot.ok trivial

end LinfaLinalg
