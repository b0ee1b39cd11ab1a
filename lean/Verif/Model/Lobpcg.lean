import Verif.Model.Cholesky
import Verif.Model.Eigh
import Verif.Model.Bidiagonal
import Verif.Model.Sort
import Verif.Model.Norm

/-! # Model of `/repo/src/lobpcg/algorithm.rs` and `/repo/src/lobpcg/mod.rs`

The internal eigensolver (`eigh_into`, which has an unbounded loop) is a parameter `eig` of the
definitions; the function `lobpcg` at the end instantiates it with the model of `eigh_into`. -/

namespace LinfaLinalg

variable {α : Type} [Zero α] [One α] [Add α] [Sub α] [Mul α] [Div α] [Neg α] [NdFloat α]

/-- `a * row` where the row vector is broadcast: column `j` is multiplied by `s[j]`. Panics on
incompatible lengths. Simplification: ndarray also broadcasts a one-element `s`; here that panics (the
code never does this, which is what the no-panic theorem establishes). -/
def Arr2.scaleCols (a : Arr2 α) (s : Arr1 α) : M (Arr2 α) :=
  if a.nc = s.len then .ok ⟨a.nr, a.nc, fun i j => a.get i j * s.get j⟩ else .error .panic

/-- `&a + &b`; unequal shapes panic. Simplification: ndarray would broadcast axes of length one. -/
def Arr2.add (a b : Arr2 α) : M (Arr2 α) :=
  if a.nr = b.nr ∧ a.nc = b.nc then .ok ⟨a.nr, a.nc, fun i j => a.get i j + b.get i j⟩
  else .error .panic

/-- `&a - &b`; unequal shapes panic. Simplification: ndarray would broadcast axes of length one. -/
def Arr2.sub (a b : Arr2 α) : M (Arr2 α) :=
  if a.nr = b.nr ∧ a.nc = b.nc then .ok ⟨a.nr, a.nc, fun i j => a.get i j - b.get i j⟩
  else .error .panic

/-- `concatenate![Axis(1), a, b]`; the macro unwraps, so unequal row counts panic. -/
def Arr2.hcat (a b : Arr2 α) : M (Arr2 α) :=
  if a.nr = b.nr then
    .ok ⟨a.nr, a.nc + b.nc, fun i j => if j < a.nc then a.get i j else b.get i (j - a.nc)⟩
  else .error .panic

/-- `concatenate![Axis(0), a, b]`; unequal column counts panic. -/
def Arr2.vcat (a b : Arr2 α) : M (Arr2 α) :=
  if a.nc = b.nc then
    .ok ⟨a.nr + b.nr, a.nc, fun i j => if i < a.nr then a.get i j else b.get (i - a.nr) j⟩
  else .error .panic

/-- `a.select(Axis(1), idx)`; panics when an index is out of range. -/
def Arr2.selectCols (a : Arr2 α) (idx : List Nat) : M (Arr2 α) :=
  if idx.all (fun j => j < a.nc) then .ok ⟨a.nr, idx.length, fun i j => a.get i (idx.getD j 0)⟩
  else .error .panic

/-- `ndarray::linalg::general_mat_mul(alpha, a, b, beta, c)`: `c = alpha * a.b + beta * c`; returns
the new `c`. -/
def genMatMul (alpha : α) (a b : Arr2 α) (beta : α) (c : Arr2 α) : M (Arr2 α) :=
  if a.nc = b.nr ∧ a.nr = c.nr ∧ b.nc = c.nc then
    .ok ⟨c.nr, c.nc, fun i j =>
      alpha * (dotTo a.nc (a.get i) fun k => b.get k j) + beta * c.get i j⟩
  else .error .panic

/-- A `Result` inspected by the caller: a returned error becomes a value. -/
def catchM {β : Type} (m : M β) : M (Except LinalgError β) :=
  match m with
  | .ok b => .ok (.ok b)
  | .error (.err e) => .ok (.error e)
  | .error f => .error f

/-- The type of `eigh_into`. -/
abbrev EigSolver (α : Type) := Arr2 α → M (Arr1 α × Arr2 α)

/-- The literal `1e-10f32` of `/repo/src/lobpcg/algorithm.rs:18`, exactly. -/
def gramFloor : ℚ := 14411519 / 144115188075855872

/-- `generalized_eig`, `/repo/src/lobpcg/algorithm.rs:16-25`. -/
def generalizedEig (eig : EigSolver α) (a b : Arr2 α) : M (Arr1 α × Arr2 α) := do
  let (valsB, vecsB) ← eig b
  let recip := valsB.map fun x => 1 / NdFloat.sqrt (NdFloat.max x (NdFloat.ofRat gramFloor))
  let vecsBt ← vecsB.scaleCols recip
  let av ← a.dot vecsBt
  let at_ ← vecsBt.t.dot av
  let (valsA, vecsA) ← eig at_
  let vecs ← vecsBt.dot vecsA
  .ok (valsA, vecs)

/-- `sorted_eig`, `/repo/src/lobpcg/algorithm.rs:28-44`. -/
def sortedEig (eig : EigSolver α) (a : Arr2 α) (b : Option (Arr2 α)) (size : Nat) (order : Order) :
    M (Arr1 α × Arr2 α) := do
  let (vals, vecs) ← (match b with
    | some b => generalizedEig eig a b
    | none => eig a : M (Arr1 α × Arr2 α))
  let (vals, vecs) ← sortEig vals vecs order
  -- `vecs.row(0)`
  if vecs.nr = 0 then .error .panic else
  let s : Arr1 α := ⟨vecs.nc, fun j => NdFloat.signum (vecs.get 0 j)⟩
  let vecs ← vecs.scaleCols s
  let vals ← vals.slice 0 size
  let vecs ← vecs.slice 0 vecs.nr 0 size
  .ok (vals, vecs)

/-- The indices of the `true` entries of a mask, `/repo/src/lobpcg/algorithm.rs:50-55`. -/
def maskIndices (mask : List Bool) : List Nat :=
  (List.range mask.length).filter fun i => mask.getD i false

/-- `ndarray_mask`, `/repo/src/lobpcg/algorithm.rs:47-58`. -/
def ndarrayMask (a : Arr2 α) (mask : List Bool) : M (Arr2 α) :=
  if mask.length = a.nc then a.selectCols (maskIndices mask) else .error .panic

/-- `apply_constraints`, `/repo/src/lobpcg/algorithm.rs:63-76`; returns the new `v`. -/
def applyConstraints (v chol y : Arr2 α) : M (Arr2 α) := do
  let gram ← y.t.dot v
  let u ← unwrapM (solveTriangular chol gram .lower)
  genMatMul (-1) y u 1 v

/-- `orthonormalize`, `/repo/src/lobpcg/algorithm.rs:81-97`. -/
def orthonormalize (v : Arr2 α) : M (Arr2 α × Arr2 α) := do
  let gram ← v.t.dot v
  let fac ← cholesky gram
  let u ← solveTriangular fac v.t .lower
  .ok (u.t, fac)

/-- `struct Lobpcg`, `/repo/src/lobpcg/mod.rs:48-52`. -/
structure Lobpcg (α : Type) where
  eigvals : Arr1 α
  eigvecs : Arr2 α
  rnorm : List α

/-- `LobpcgResult`, `/repo/src/lobpcg/mod.rs:47`. -/
abbrev LobpcgResult (α : Type) := Except (LinalgError × Option (Lobpcg α)) (Lobpcg α)

/-- `v.iter().cloned().sum()`. -/
def sumList (l : List α) : α := l.foldl (· + ·) 0

/-- One iterate, as seen at the top of the loop: the pairs, their residual norms, the mask of the
pairs which are still active, and the Gram matrix of the basis from which the iterate was computed
(`none` for the first one). -/
structure Iterate (α : Type) where
  pairs : Lobpcg α
  active : List Bool
  gram : Option (Arr2 α)

/-- The user's closures and the scalar arguments of `lobpcg`, `/repo/src/lobpcg/algorithm.rs:119-127`.
`a` gets the number of the call as an extra argument, so that an operator need not be a function of
its argument alone. `m` modifies its argument in place; it is modelled as a function returning the new
contents. Both may panic. `tol` is the tolerance after `NumCast::from`. -/
structure LobParams (α : Type) where
  a : Nat → Arr2 α → M (Arr2 α)
  m : Arr2 α → M (Arr2 α)
  y : Option (Arr2 α)
  tol : α
  order : Order

/-- `a(x.view())`. -/
def LobParams.apply (P : LobParams α) (call : Nat) (x : Arr2 α) : M (Arr2 α) := unwrapM (P.a call x)

/-- `m(v.view_mut())`: the contents change, the shape cannot. -/
def LobParams.precondition (P : LobParams α) (v : Arr2 α) : M (Arr2 α) := do
  let w ← unwrapM (P.m v)
  if w.nr = v.nr ∧ w.nc = v.nc then .ok w else .error .panic

/-- `apply_constraints(v.view_mut(), &cholesky_yy, y.view())` if there are constraints,
`/repo/src/lobpcg/algorithm.rs:155-159, 244-246`. -/
def LobParams.constrain (P : LobParams α) (cholYY : Option (Arr2 α)) (v : Arr2 α) : M (Arr2 α) :=
  match P.y, cholYY with
  | some y, some c => applyConstraints v c y
  | _, _ => .ok v

/-- The mutable variables of the main loop. `hist` extends `residual_norms_history`
(`/repo/src/lobpcg/algorithm.rs:180,207`), which the source only writes to, by the iterate itself,
the mask and the Gram matrix, which `gram` carries over from the previous pass. `calls` counts the
calls of the operator; it only serves to pass `P.a` its extra argument. `iter` is the remaining number
of iterations. -/
structure LobState (α : Type) where
  lambda : Arr1 α
  x : Arr2 α
  ax : Arr2 α
  mask : List Bool
  best : Option (Lobpcg α)
  blockSize : Nat
  ident : Arr2 α
  pap : Option (Arr2 α × Arr2 α)
  explicitGram : Bool
  iter : Nat
  calls : Nat
  gram : Option (Arr2 α)
  hist : List (Iterate α)

/-- Residual and its column norms, `/repo/src/lobpcg/algorithm.rs:194-206`. -/
def lobResidual (st : LobState α) : M (Arr2 α × List α) := do
  let lambdaX ← st.x.dot (Arr2.fromDiag st.lambda)
  let r ← st.ax.sub lambdaX
  .ok (r, (List.range r.nc).map fun j => normL2 ((List.range r.nr).map fun i => r.get i j))

/-- `/repo/src/lobpcg/algorithm.rs:210-217`. -/
def updateBest (best : Option (Lobpcg α)) (cur : Lobpcg α) : Option (Lobpcg α) :=
  match best with
  | none => some cur
  | some b => if NdFloat.lt (sumList cur.rnorm) (sumList b.rnorm) then some cur else some b

/-- `/repo/src/lobpcg/algorithm.rs:220-224`. -/
def updateMask (tol : α) (norms : List α) (mask : List Bool) : List Bool :=
  List.zipWith (fun x a => NdFloat.lt tol x && a) norms mask

/-- The first part of the loop body, `/repo/src/lobpcg/algorithm.rs:194-231`; also returns the residual
and its norms. -/
def lobHead (P : LobParams α) (st : LobState α) : M (LobState α × Arr2 α × List α) := do
  let (r, norms) ← lobResidual st
  let cur : Lobpcg α := ⟨st.lambda, st.x, norms⟩
  let mask := updateMask P.tol norms st.mask
  let block := mask.count true
  .ok ({ st with
      best := updateBest st.best cur
      mask := mask
      blockSize := block
      ident := if block ≠ st.blockSize then Arr2.eye block block else st.ident
      hist := st.hist ++ [⟨cur, mask, st.gram⟩] }, r, norms)

/-- `(&v + &v.t()) / two`. If `v` is not square this panics, whereas ndarray broadcasts `b × 1` against
`1 × b`; `v` is not square only if the operator returns a matrix of the wrong shape, and then the source
panics in the concatenations that follow. -/
def symmetrize (v : Arr2 α) : M (Arr2 α) := do
  let s ← v.add v.t
  .ok (s.map fun x => x / NdFloat.ofRat 2)

/-- The Gram matrices of `X` and `R`, `/repo/src/lobpcg/algorithm.rs:276-299`. -/
structure XRGram (α : Type) where
  xax : Arr2 α
  xar : Arr2 α
  rar : Arr2 α
  xx : Arr2 α
  rr : Arr2 α
  xr : Arr2 α

/-- `/repo/src/lobpcg/algorithm.rs:276-299`. -/
def xrGram (st : LobState α) (r ar : Arr2 α) : M (XRGram α) := do
  let xar ← st.x.t.dot ar
  let rar ← r.t.dot ar
  if st.explicitGram then do
    let rar ← symmetrize rar
    let xax ← st.x.t.dot st.ax
    let xax ← symmetrize xax
    let xx ← st.x.t.dot st.x
    let rr ← r.t.dot r
    let xr ← st.x.t.dot r
    .ok ⟨xax, xar, rar, xx, rr, xr⟩
  else
    .ok ⟨Arr2.fromDiag st.lambda, xar, rar, Arr2.eye st.x.nc st.x.nc, st.ident,
      Arr2.zeros st.x.nc st.blockSize⟩

/-- Masking and orthonormalisation of `P` and `AP`, `/repo/src/lobpcg/algorithm.rs:302-316`. -/
def activePAP (mask : List Bool) : Option (Arr2 α × Arr2 α) → M (Option (Arr2 α × Arr2 α))
  | none => .ok none
  | some (p, ap) => do
    let activeP ← ndarrayMask p mask
    let activeAP ← ndarrayMask ap mask
    match ← catchM (orthonormalize activeP) with
    | .error _ => .ok none
    | .ok (activeP, pr) =>
      match ← catchM (solveTriangular pr activeAP.t .lower) with
      | .error _ => .ok none
      | .ok w => .ok (some (activeP, w.t))

/-- `concatenate![Axis(0), concatenate![Axis(1), a, b], concatenate![Axis(1), b.t(), c]]`. -/
def block2 (a b c : Arr2 α) : M (Arr2 α) := do
  let r0 ← a.hcat b
  let r1 ← b.t.hcat c
  r0.vcat r1

/-- The 3 × 3 block matrix `[[a, b, c], [bᵀ, d, e], [cᵀ, eᵀ, f]]` built with `concatenate!`. -/
def block3 (a b c d e f : Arr2 α) : M (Arr2 α) := do
  let r0 ← a.hcat b
  let r0 ← r0.hcat c
  let r1 ← b.t.hcat d
  let r1 ← r1.hcat e
  let r2 ← c.t.hcat e.t
  let r2 ← r2.hcat f
  let s ← r0.vcat r1
  s.vcat r2

/-- The eigenproblem on `span{X, R, P}`, `/repo/src/lobpcg/algorithm.rs:325-353`. The third component of
the result is the Gram matrix, for `LobState.gram`. -/
def eig3 (eig : EigSolver α) (order : Order) (st : LobState α) (r : Arr2 α) (g : XRGram α)
    (p ap : Arr2 α) : M (Arr1 α × Arr2 α × Arr2 α) := do
  let xap ← st.x.t.dot ap
  let rap ← r.t.dot ap
  let pap ← p.t.dot ap
  let xp ← st.x.t.dot p
  let rp ← r.t.dot p
  let (pap, pp) ← (if st.explicitGram then do
      let pap ← symmetrize pap
      let pp ← p.t.dot p
      .ok (pap, pp)
    else .ok (pap, st.ident) : M (Arr2 α × Arr2 α))
  let a ← block3 g.xax g.xar xap g.rar rap pap
  let b ← block3 g.xx g.xr xp g.rr rp pp
  let (vals, vecs) ← sortedEig eig a (some b) st.x.nc order
  .ok (vals, vecs, b)

/-- The eigenproblem on `span{X, R}`, `/repo/src/lobpcg/algorithm.rs:357-370`. -/
def eig2 (eig : EigSolver α) (order : Order) (st : LobState α) (g : XRGram α) :
    M (Arr1 α × Arr2 α × Arr2 α) := do
  let a ← block2 g.xax g.xar g.rar
  let b ← block2 g.xx g.xr g.rr
  let (vals, vecs) ← sortedEig eig a (some b) st.x.nc order
  .ok (vals, vecs, b)

/-- First try `span{X, R, P}`, otherwise drop `P` and use `span{X, R}`,
`/repo/src/lobpcg/algorithm.rs:322-371`; returns the `P`, `AP` that are used and the result. -/
def lobEig (eig : EigSolver α) (order : Order) (st : LobState α) (r : Arr2 α) (g : XRGram α)
    (pap : Option (Arr2 α × Arr2 α)) :
    M (Option (Arr2 α × Arr2 α) × Except LinalgError (Arr1 α × Arr2 α × Arr2 α)) := do
  let first ← (match pap with
    | none => .ok (.error .nonInvertible)
    | some (p, ap) => catchM (eig3 eig order st r g p ap) :
    M (Except LinalgError (Arr1 α × Arr2 α × Arr2 α)))
  match first with
  | .ok v => .ok (pap, .ok v)
  | .error _ => do
    let v ← catchM (eig2 eig order st g)
    .ok (none, v)

/-- The new `P` and `AP`, `/repo/src/lobpcg/algorithm.rs:384-408`. -/
def updatePAP (sizeX block : Nat) (r ar vecs : Arr2 α) :
    Option (Arr2 α × Arr2 α) → M (Arr2 α × Arr2 α)
  | some (p, ap) => do
    let alpha ← vecs.slice sizeX (sizeX + block) 0 vecs.nc
    let gamma ← vecs.slice (sizeX + block) vecs.nr 0 vecs.nc
    let ra ← r.dot alpha
    let pg ← p.dot gamma
    let p' ← ra.add pg
    let ara ← ar.dot alpha
    let apg ← ap.dot gamma
    let ap' ← ara.add apg
    .ok (p', ap')
  | none => do
    let alpha ← vecs.slice sizeX vecs.nr 0 vecs.nc
    let p' ← r.dot alpha
    let ap' ← ar.dot alpha
    .ok (p', ap')

/-- The rest of the loop body, `/repo/src/lobpcg/algorithm.rs:239-416`. `.error e` stands for
`break Err(e)`. -/
def lobTail (eig : EigSolver α) (P : LobParams α) (cholYY : Option (Arr2 α)) (st : LobState α)
    (r : Arr2 α) (norms : List α) : M (Except LinalgError (LobState α)) := do
  let v ← ndarrayMask r st.mask
  let v ← P.precondition v
  let v ← P.constrain cholYY v
  let xv ← st.x.t.dot v
  let v ← genMatMul (-1) st.x xv 1 v
  match ← catchM (orthonormalize v) with
  | .error e => .ok (.error e)
  | .ok (r, _) => do
    let ar ← P.apply st.calls r
    let maxRnormFloat : α :=
      if NdFloat.lt (NdFloat.ofRat (1 / 10 ^ 8)) (NdFloat.epsilon : α) then NdFloat.ofRat 1
      else NdFloat.ofRat (1 / 10 ^ 8)
    let maxNorm := norms.foldl NdFloat.max NdFloat.negInf
    let st := { st with
      calls := st.calls + 1
      explicitGram := NdFloat.le maxNorm maxRnormFloat || st.explicitGram }
    let g ← xrGram st r ar
    let pap ← activePAP st.mask st.pap
    let (pap, result) ← lobEig eig P.order st r g pap
    match result with
    | .error e => .ok (.error e)
    | .ok (lambda, vecs, gram) => do
      let tau ← vecs.slice 0 st.x.nc 0 vecs.nc
      let (p, ap) ← updatePAP st.x.nc st.blockSize r ar vecs pap
      let xt ← st.x.dot tau
      let x ← xt.add p
      let axt ← st.ax.dot tau
      let ax ← axt.add ap
      .ok (.ok { st with
        lambda := lambda, x := x, ax := ax, pap := some (p, ap), iter := st.iter - 1,
        gram := some gram })

/-- The main loop, `/repo/src/lobpcg/algorithm.rs:193-417`: the final state and `none` for
`break Ok(_)`, `some e` for `break Err(e)`. The recursion is on the remaining number of iterations. -/
def lobLoop (eig : EigSolver α) (P : LobParams α) (cholYY : Option (Arr2 α)) :
    Nat → LobState α → M (LobState α × Option LinalgError)
  | n, st => do
    let (st, r, norms) ← lobHead P st
    if st.blockSize = 0 ∨ st.iter = 0 then .ok (st, none)
    else
      match n with
      | 0 => .error .fuel
      | n + 1 =>
        match ← lobTail eig P cholYY st r norms with
        | .error e => .ok (st, some e)
        | .ok st => lobLoop eig P cholYY n st

/-- `lobpcg`, `/repo/src/lobpcg/algorithm.rs:119-431`; also returns the iterates visited. The first
argument of `lobLoop` is the number of passes it may make beyond the first one; that it is never
exhausted is part of C43. -/
def lobpcgRun (eig : EigSolver α) (P : LobParams α) (x : Arr2 α) (maxiter : Nat) :
    M (LobpcgResult α × List (Iterate α)) :=
  let n := x.nr
  let sizeX := x.nc
  if sizeX > n then .ok (.error (.notThin n sizeX, none), [])
  else do
    let iter := min (n * 10) maxiter
    let cholYY ← (match P.y with
      | none => .ok none
      | some y => do
        let yy ← y.t.dot y
        let c ← unwrapM (cholesky yy)
        .ok (some c) : M (Option (Arr2 α)))
    let x ← P.constrain cholYY x
    match ← catchM (orthonormalize x) with
    | .error e => .ok (.error (e, none), [])
    | .ok (x, _) => do
      let ax ← P.apply 0 x
      let xax ← x.t.dot ax
      match ← catchM (sortedEig eig xax none sizeX P.order) with
      | .error e => .ok (.error (e, none), [])
      | .ok (lambda, eigBlock) => do
        let x ← x.dot eigBlock
        let ax ← ax.dot eigBlock
        let (st, final) ← lobLoop eig P cholYY iter
          ⟨lambda, x, ax, List.replicate sizeX true, none, sizeX, Arr2.eye sizeX sizeX, none, true, iter,
            1, none, []⟩
        match st.best with
        | none => .error .panic
        | some res =>
          match final with
          | none => .ok (.ok res, st.hist)
          | some e => .ok (.error (e, some res), st.hist)

/-- `lobpcg`, `/repo/src/lobpcg/algorithm.rs:119-431`, with at most `fuel` iterations of the loop inside
each call of `eigh_into`. -/
def lobpcg (fuel : Nat) (P : LobParams α) (x : Arr2 α) (maxiter : Nat) : M (LobpcgResult α) := do
  let (r, _) ← lobpcgRun (eighInto fuel) P x maxiter
  .ok r

end LinfaLinalg
