import Verif.Model.Bidiagonal
import Verif.Model.Eigh

/-! # Model of `/repo/src/svd.rs` -/

namespace LinfaLinalg

variable {α : Type} [Zero α] [One α] [Add α] [Sub α] [Mul α] [Div α] [Neg α] [NdFloat α]

/-- `a.slice(s![.., c0..c1; step])`; panics like ndarray on an invalid range or a zero step. -/
def Arr2.colsStep (a : Arr2 α) (c0 c1 step : Nat) : M (Arr2 α) :=
  if step ≠ 0 ∧ c0 ≤ c1 ∧ c1 ≤ a.nc then
    .ok ⟨a.nr, (c1 - c0 + (step - 1)) / step, fun i j => a.get i (c0 + j * step)⟩
  else .error .panic

/-- Writing a mutable view `v`, taken as `s![.., c0..c1; step]`, back. -/
def Arr2.putColsStep (a : Arr2 α) (c0 step : Nat) (v : Arr2 α) : Arr2 α :=
  ⟨a.nr, a.nc, fun i j =>
    if i < v.nr ∧ c0 ≤ j ∧ (j - c0) % step = 0 ∧ (j - c0) / step < v.nc then
      v.get i ((j - c0) / step)
    else a.get i j⟩

/-- `g.rotate_rows(&mut u.slice_mut(s![.., c0..c1; step])).unwrap()` on an optional matrix. -/
def rotateUCols (g : GivensRotation α) (c0 c1 step : Nat) : Option (Arr2 α) → M (Option (Arr2 α))
  | none => .ok none
  | some u => do
    let v ← u.colsStep c0 c1 step
    let v ← unwrapM (g.rotateRows v)
    .ok (some (u.putColsStep c0 step v))

/-- `g.rotate_cols(&mut vt.slice_mut(s![c0..c1; step, ..])).unwrap()` on an optional matrix. -/
def rotateVtRows (g : GivensRotation α) (c0 c1 step : Nat) : Option (Arr2 α) → M (Option (Arr2 α))
  | none => .ok none
  | some vt => do
    let v ← vt.t.colsStep c0 c1 step
    let v ← unwrapM (g.rotateCols v.t)
    .ok (some (vt.t.putColsStep c0 step v.t).t)

/-- The mutable data shared by the functions of `svd.rs`: `diag`, `off_diag`, `u`, `vt`. -/
structure SvdData (α : Type) where
  diag : Arr1 α
  off : Arr1 α
  u : Option (Arr2 α)
  vt : Option (Arr2 α)

/-- The state of the loops of the two `cancel_*_off_diagonal_elt` functions: the data and `v`. -/
structure CancelState (α : Type) where
  s : SvdData α
  v0 : α
  v1 : α

/-- Body of the loop of `cancel_horizontal_off_diagonal_elt`, `/repo/src/svd.rs:302-325`. -/
def cancelHStep (up : Bool) (i end_ k : Nat) (st : CancelState α) : M (Step (CancelState α)) := do
  match GivensRotation.cancelX st.v0 st.v1 with
  | none => .ok (.brk st)
  | some (rot, norm) => do
    let diag ← st.s.diag.atm (k + 1) norm
    let u ← (if up then rotateUCols rot.inverse i (k + 2) (k - i + 1) st.s.u else .ok st.s.u :
      M (Option (Arr2 α)))
    let vt ← (if up then .ok st.s.vt else rotateVtRows rot i (k + 2) (k - i + 1) st.s.vt :
      M (Option (Arr2 α)))
    let (off, v0, v1) ← (
      if k + 1 ≠ end_ then do
        let o ← st.s.off.at (k + 1)
        let d ← diag.at (k + 2)
        let off ← st.s.off.atm (k + 1) (o * rot.c)
        .ok (off, -rot.s * o, d)
      else .ok (st.s.off, st.v0, st.v1) : M (Arr1 α × α × α))
    .ok (.next ⟨⟨diag, off, u, vt⟩, v0, v1⟩)

/-- `cancel_horizontal_off_diagonal_elt`, `/repo/src/svd.rs:289-327`. -/
def cancelH (up : Bool) (i end_ : Nat) (s : SvdData α) : M (SvdData α) := do
  let v0 ← s.off.idx i
  let v1 ← s.diag.idx (i + 1)
  let off ← s.off.idxSet i 0
  let r ← loopBrk (List.range' i (end_ - i)) (⟨{ s with off := off }, v0, v1⟩ : CancelState α)
    (cancelHStep up i end_)
  .ok r.s

/-- Body of the loop of `cancel_vertical_off_diagonal_elt`, `/repo/src/svd.rs:341-364`. -/
def cancelVStep (up : Bool) (i k : Nat) (st : CancelState α) : M (Step (CancelState α)) := do
  match GivensRotation.cancelY st.v0 st.v1 with
  | none => .ok (.brk st)
  | some (rot, norm) => do
    let diag ← st.s.diag.atm k norm
    let vt ← (if up then rotateVtRows rot k (i + 2) (i - k + 1) st.s.vt else .ok st.s.vt :
      M (Option (Arr2 α)))
    let u ← (if up then .ok st.s.u else rotateUCols rot.inverse k (i + 2) (i - k + 1) st.s.u :
      M (Option (Arr2 α)))
    let (off, v0, v1) ← (
      if 0 < k then do
        let d ← diag.at (k - 1)
        let o ← st.s.off.at (k - 1)
        let off ← st.s.off.atm (k - 1) (o * rot.c)
        .ok (off, d, rot.s * o)
      else .ok (st.s.off, st.v0, st.v1) : M (Arr1 α × α × α))
    .ok (.next ⟨⟨diag, off, u, vt⟩, v0, v1⟩)

/-- `cancel_vertical_off_diagonal_elt`, `/repo/src/svd.rs:329-366`. -/
def cancelV (up : Bool) (i : Nat) (s : SvdData α) : M (SvdData α) := do
  let v0 ← s.diag.idx i
  let v1 ← s.off.idx i
  let off ← s.off.idxSet i 0
  let r ← loopBrk (List.range' 0 (i + 1)).reverse (⟨{ s with off := off }, v0, v1⟩ : CancelState α)
    (cancelVStep up i)
  .ok r.s

/-- First loop of `delimit_subproblem`, `/repo/src/svd.rs:236-258`; the last argument is the current
value of `n`; returns the modified data and the final `n`. -/
def svdDelimitEnd (up : Bool) (eps : α) : Nat → SvdData α → M (SvdData α × Nat)
  | 0, s => .ok (s, 0)
  | m + 1, s => do
    let o ← s.off.at m
    let dn ← s.diag.at (m + 1)
    let dm ← s.diag.at m
    if NdFloat.isZero o || NdFloat.le (NdFloat.abs o) (eps * (NdFloat.abs dn + NdFloat.abs dm)) then do
      let off ← s.off.atm m 0
      svdDelimitEnd up eps m { s with off := off }
    else if NdFloat.le (NdFloat.abs dm) eps then do
      let diag ← s.diag.atm m 0
      let s ← cancelH up m (m + 1) { s with diag := diag }
      let s ← (if m ≠ 0 then cancelV up (m - 1) s else .ok s : M (SvdData α))
      svdDelimitEnd up eps m s
    else if NdFloat.le (NdFloat.abs dn) eps then do
      let diag ← s.diag.atm (m + 1) 0
      let s ← cancelV up m { s with diag := diag }
      svdDelimitEnd up eps m s
    else .ok (s, m + 1)

/-- Second loop of `delimit_subproblem`, `/repo/src/svd.rs:264-284`; the last argument is the current
value of `new_start`; returns the modified data and `new_start`. -/
def svdDelimitStart (up : Bool) (eps : α) (n : Nat) : Nat → SvdData α → M (SvdData α × Nat)
  | 0, s => .ok (s, 0)
  | m + 1, s => do
    let o ← s.off.at m
    let dn ← s.diag.at (m + 1)
    let dm ← s.diag.at m
    if NdFloat.le (NdFloat.abs o) (eps * (NdFloat.abs dn + NdFloat.abs dm)) then do
      let off ← s.off.atm m 0
      .ok ({ s with off := off }, m + 1)
    else if NdFloat.le (NdFloat.abs dm) eps then do
      let diag ← s.diag.atm m 0
      let s ← cancelH up m n { s with diag := diag }
      let s ← (if m ≠ 0 then cancelV up (m - 1) s else .ok s : M (SvdData α))
      .ok (s, m + 1)
    else svdDelimitStart up eps n m s

/-- `delimit_subproblem`, `/repo/src/svd.rs:226-287`; returns the modified data and
`(start, end)`. -/
def svdDelimit (up : Bool) (end_ : Nat) (eps : α) (s : SvdData α) : M (SvdData α × Nat × Nat) := do
  let (s, n) ← svdDelimitEnd up eps end_ s
  if n = 0 then .ok (s, 0, 0)
  else do
    let (s, start) ← svdDelimitStart up eps n (n - 1) s
    .ok (s, start, n)

/-- `compute_2x2_uptrig_svd`, `/repo/src/svd.rs:371-412`. -/
def compute2x2UptrigSvd (m11 m12 m22 : α) (computeU computeV : Bool) :
    α × α × Option (GivensRotation α) × Option (GivensRotation α) :=
  let two : α := NdFloat.ofRat 2
  let denom := NdFloat.hypot (m11 + m22) m12 + NdFloat.hypot (m11 - m22) m12
  let v1 := m11 * m22 * two / denom
  let v2 := denom / two
  if computeV || computeU then
    let cv := m11 * m12
    let sv := v1 * v1 - m11 * m11
    let (csv, sgnV) := GivensRotation.new cv sv
    let v1 := v1 * sgnV
    let v2 := v2 * sgnV
    let vt := if computeV then some csv else none
    let cu := (m11 * csv.c + m12 * csv.s) / v1
    let su := (m22 * csv.s) / v1
    let (csu, sgnU) := GivensRotation.new cu su
    let v1 := v1 * sgnU
    let v2 := v2 * sgnU
    let u := if computeU then some csu else none
    (v1, v2, u, vt)
  else (v1, v2, none, none)

/-- The mutable state of the main loop of `svd`. -/
structure SvdState (α : Type) where
  s : SvdData α
  start : Nat
  «end» : Nat

/-- The state of the sweep `for k in start..n`, `/repo/src/svd.rs:77`: the data and `vec`. -/
structure SvdSweep (α : Type) where
  s : SvdData α
  x : α
  y : α

/-- The body of the sweep, `/repo/src/svd.rs:78-155`. The 2×3 array `subm` is an `Arr2`. -/
def svdSweepStep (up : Bool) (start n k : Nat) (st : SvdSweep α) : M (Step (SvdSweep α)) := do
  let m12 ← (if k = n - 1 then .ok 0 else st.s.off.at (k + 1) : M α)
  let dk ← st.s.diag.at k
  let ok ← st.s.off.at k
  let dk1 ← st.s.diag.at (k + 1)
  let subm : Arr2 α := ⟨2, 3, fun i j =>
    if i = 0 then (if j = 0 then dk else if j = 1 then ok else 0)
    else (if j = 0 then 0 else if j = 1 then dk1 else m12)⟩
  match GivensRotation.cancelY st.x st.y with
  | none => .ok (.brk st)
  | some (rot1, norm1) => do
    let v ← subm.slice 0 2 0 2
    let v ← unwrapM (rot1.inverse.rotateRows v)
    let subm := subm.put 0 0 v
    let off ← (if start < k then st.s.off.atm (k - 1) norm1 else .ok st.s.off : M (Arr1 α))
    let v1 ← subm.at 0 0
    let v2 ← subm.at 1 0
    let (subm, rot2, norm2) ← (
      match GivensRotation.cancelY v1 v2 with
      | some (rot, norm) => do
        let v ← subm.slice 0 2 1 3
        let v ← unwrapM (rot.rotateCols v)
        .ok (subm.put 0 1 v, some rot, norm)
      | none => .ok (subm, none, v1) : M (Arr2 α × Option (GivensRotation α) × α))
    let subm ← subm.atm 0 0 norm2
    let vt ← (if up then rotateVtRows rot1 k (k + 2) 1 st.s.vt
      else match rot2 with
        | some rot2 => rotateVtRows rot2 k (k + 2) 1 st.s.vt
        | none => .ok st.s.vt : M (Option (Arr2 α)))
    let u ← (if !up then rotateUCols rot1.inverse k (k + 2) 1 st.s.u
      else match rot2 with
        | some rot2 => rotateUCols rot2.inverse k (k + 2) 1 st.s.u
        | none => .ok st.s.u : M (Option (Arr2 α)))
    let s00 ← subm.at 0 0
    let diag ← st.s.diag.atm k s00
    let s11 ← subm.at 1 1
    let diag ← diag.atm (k + 1) s11
    let s01 ← subm.at 0 1
    let off ← off.atm k s01
    let s12 ← subm.at 1 2
    let off ← (if k ≠ n - 1 then off.atm (k + 1) s12 else .ok off : M (Arr1 α))
    let s02 ← subm.at 0 2
    .ok (.next ⟨⟨diag, off, u, vt⟩, s01, s02⟩)

/-- The branch `subdim > 2`, `/repo/src/svd.rs:58-156`. -/
def svdSweep (up : Bool) (st : SvdState α) : M (SvdState α) := do
  let m := st.end - 1
  let n := st.end
  let dm ← st.s.diag.at m
  let dn ← st.s.diag.at n
  let fm ← st.s.off.at m
  -- `m - 1` underflows (panics) when `m = 0`
  let fm1 ← (if m = 0 then .error .panic else st.s.off.at (m - 1) : M α)
  let tmm := dm * dm + fm1 * fm1
  let tmn := dm * fm
  let tnn := dn * dn + fm * fm
  let shift := wilkinsonShift tmm tnn tmn
  let ds ← st.s.diag.at st.start
  let os ← st.s.off.at st.start
  let r ← loopBrk (List.range' st.start (n - st.start))
    (⟨st.s, ds * ds - shift, ds * os⟩ : SvdSweep α) (svdSweepStep up st.start n)
  .ok ⟨r.s, st.start, st.end⟩

/-- `rot.unwrap()` for the optional rotations of the 2×2 branch, applied only if the matrix is
present: `if let Some(ref mut u) = u { rot_u.unwrap().rotate_rows(..).unwrap(); }`,
`/repo/src/svd.rs:178-183`. -/
def svdRotU (rot : Option (GivensRotation α)) (start : Nat) (u : Option (Arr2 α)) :
    M (Option (Arr2 α)) :=
  match u, rot with
  | none, _ => .ok none
  | some _, none => .error .panic
  | some u, some r => rotateUCols r start (start + 2) 1 (some u)

/-- `if let Some(ref mut vt) = vt { rot_v.unwrap().inverse().rotate_cols(..).unwrap(); }`,
`/repo/src/svd.rs:185-191`. -/
def svdRotVt (rot : Option (GivensRotation α)) (start : Nat) (vt : Option (Arr2 α)) :
    M (Option (Arr2 α)) :=
  match vt, rot with
  | none, _ => .ok none
  | some _, none => .error .panic
  | some vt, some r => rotateVtRows r.inverse start (start + 2) 1 (some vt)

/-- The branch `subdim == 2`, `/repo/src/svd.rs:157-194`. -/
def svd2x2 (up computeU computeV : Bool) (st : SvdState α) : M (SvdState α) := do
  let d0 ← st.s.diag.at st.start
  let o ← st.s.off.at st.start
  let d1 ← st.s.diag.at (st.start + 1)
  let (s1, s2, u2, v2) := compute2x2UptrigSvd d0 o d1
    (computeU && up || computeV && !up) (computeV && up || computeU && !up)
  let diag ← st.s.diag.atm st.start s1
  let diag ← diag.atm (st.start + 1) s2
  let off ← st.s.off.atm st.start 0
  let (rotU, rotV) := if up then (u2, v2) else (v2, u2)
  let u ← svdRotU rotU st.start st.s.u
  let vt ← svdRotVt rotV st.start st.s.vt
  .ok ⟨⟨diag, off, u, vt⟩, st.start, st.end - 1⟩

/-- One iteration of `while end != start`, `/repo/src/svd.rs:55-208`. -/
def svdStep (up computeU computeV : Bool) (eps : α) (st : SvdState α) : M (SvdState α) := do
  -- `end - start` overflows (panics) when `end < start`
  if st.end < st.start then .error .panic else
  let subdim := st.end - st.start + 1
  let st ← (if 2 < subdim then svdSweep up st
    else if subdim = 2 then svd2x2 up computeU computeV st else .ok st : M (SvdState α))
  let (s, start, e) ← svdDelimit up st.end eps st.s
  .ok ⟨s, start, e⟩

/-- `while end != start { … }`, `/repo/src/svd.rs:55`, run for at most `fuel` iterations. -/
def svdLoop (up computeU computeV : Bool) (eps : α) : Nat → SvdState α → M (SvdState α)
  | 0, st => if st.end = st.start then .ok st else .error .fuel
  | fuel + 1, st =>
    if st.end = st.start then .ok st
    else do
      let st ← svdStep up computeU computeV eps st
      svdLoop up computeU computeV eps fuel st

/-- `u.column_mut(i).mul_assign(k)` on an optional matrix. -/
def scaleCol (i : Nat) (k : α) : Option (Arr2 α) → M (Option (Arr2 α))
  | none => .ok none
  | some u =>
    if i < u.nc then .ok (some ⟨u.nr, u.nc, fun r c => if c = i then u.get r c * k else u.get r c⟩)
    else .error .panic

/-- The final loop that makes the singular values positive, `/repo/src/svd.rs:212-221`. The factor is
`-A::zero()`, as in the source. -/
def fixSigns (dim : Nat) (diag : Arr1 α) (u : Option (Arr2 α)) : M (Arr1 α × Option (Arr2 α)) :=
  forRange 0 dim (diag, u) fun i (diag, u) => do
    let val ← diag.idx i
    if NdFloat.isSignNeg val then do
      let diag ← diag.idxSet i (-val)
      let u ← scaleCol i (-(0 : α)) u
      .ok (diag, u)
    else .ok (diag, u)

/-- `svd`, `/repo/src/svd.rs:17-224`, with at most `fuel` iterations of its main loop. -/
def svdGo (fuel : Nat) (a : Arr2 α) (computeU computeV : Bool) (eps : α) :
    M (Option (Arr2 α) × Arr1 α × Option (Arr2 α)) :=
  if a.nr = 0 ∨ a.nc = 0 then throwErr .emptyMatrix
  else do
    let dim := min a.nr a.nc
    let amax := a.amax
    let bidiag ← bidiagonal (a.scaleDown amax)
    let up := bidiag.upperDiag
    let u ← (if computeU then (do let u ← bidiag.generateU; .ok (some u)) else .ok none :
      M (Option (Arr2 α)))
    let vt ← (if computeV then (do let v ← bidiag.generateVt; .ok (some v)) else .ok none :
      M (Option (Arr2 α)))
    let (diag, off) := bidiag.intoDiagonals
    let (s, start, e) ← svdDelimit up (dim - 1) eps ⟨diag, off, u, vt⟩
    let st ← svdLoop up computeU computeV eps fuel ⟨s, start, e⟩
    let (diag, u) ← fixSigns dim (st.s.diag.map fun x => x * amax) st.s.u
    .ok (u, diag, st.s.vt)

/-- `SVDInto::svd_into`, `/repo/src/svd.rs:435-442`. -/
def svdInto (fuel : Nat) (a : Arr2 α) (calcU calcVt : Bool) :
    M (Option (Arr2 α) × Arr1 α × Option (Arr2 α)) :=
  svdGo fuel a calcU calcVt (NdFloat.epsilon * NdFloat.ofRat 5)

/-- `SVD::svd`, `/repo/src/svd.rs:466-478`. -/
def svd (fuel : Nat) (a : Arr2 α) (calcU calcVt : Bool) :
    M (Option (Arr2 α) × Arr1 α × Option (Arr2 α)) :=
  svdGo fuel a calcU calcVt (NdFloat.epsilon * NdFloat.ofRat 5)

end LinfaLinalg
