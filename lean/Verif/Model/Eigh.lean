import Verif.Model.Givens
import Verif.Model.Tridiagonal

/-! # Model of `/repo/src/eigh.rs` -/

namespace LinfaLinalg

variable {α : Type} [Zero α] [One α] [Add α] [Sub α] [Mul α] [Div α] [Neg α] [NdFloat α]

/-- `matrix.iter().map(|f| f.abs()).fold(A::neg_infinity(), |a, b| a.max(b))`,
`/repo/src/eigh.rs:27-30` and `/repo/src/svd.rs:28-31`. -/
def Arr2.amax (a : Arr2 α) : α :=
  (a.toList.map NdFloat.abs).foldl NdFloat.max NdFloat.negInf

/-- `if amax != A::zero() { matrix /= amax; }`, `/repo/src/eigh.rs:32-34` and
`/repo/src/svd.rs:33-35`. -/
def Arr2.scaleDown (a : Arr2 α) (amax : α) : Arr2 α :=
  if NdFloat.isZero amax then a else a.map fun x => x / amax

/-- First loop of `delimit_subproblem`, `/repo/src/eigh.rs:140-150`; the argument is the current
value of `n`. -/
def delimitEnd (diag off : Arr1 α) (eps : α) : Nat → M Nat
  | 0 => .ok 0
  | m + 1 => do
    let o ← off.at m
    let dn ← diag.at (m + 1)
    let dm ← diag.at m
    if NdFloat.lt (eps * (NdFloat.abs dn + NdFloat.abs dm)) (NdFloat.abs o) then .ok (m + 1)
    else delimitEnd diag off eps m

/-- Second loop of `delimit_subproblem`, `/repo/src/eigh.rs:156-168`; the argument is the current
value of `new_start`; returns the modified `off_diag` and `new_start`. -/
def delimitStart (diag : Arr1 α) (eps : α) (off : Arr1 α) : Nat → M (Arr1 α × Nat)
  | 0 => .ok (off, 0)
  | m + 1 => do
    let o ← off.at m
    let dn ← diag.at (m + 1)
    let dm ← diag.at m
    if NdFloat.isZero o || NdFloat.le (NdFloat.abs o) (eps * (NdFloat.abs dn + NdFloat.abs dm)) then do
      let off ← off.atm m 0
      .ok (off, m + 1)
    else delimitStart diag eps off m

/-- `delimit_subproblem`, `/repo/src/eigh.rs:134-171`; returns the modified `off_diag` and
`(start, end)`. -/
def delimitSubproblem (diag off : Arr1 α) (end_ : Nat) (eps : α) : M (Arr1 α × Nat × Nat) := do
  let n ← delimitEnd diag off eps end_
  if n = 0 then .ok (off, 0, 0)
  else do
    let (off, start) ← delimitStart diag eps off (n - 1)
    .ok (off, start, n)

/-- `wilkinson_shift`, `/repo/src/eigh.rs:179-187`. -/
def wilkinsonShift (tmm tnn tmn : α) : α :=
  if !NdFloat.isZero tmn then
    let tmnSq := tmn * tmn
    let d := (tmm - tnn) * NdFloat.ofRat (1 / 2)
    tnn - tmnSq / (d + NdFloat.signum d * NdFloat.sqrt (d * d + tmnSq))
  else tnn

/-- `compute_2x2_eigvals`, `/repo/src/eigh.rs:189-199`. -/
def compute2x2Eigvals (h00 h10 h01 h11 : α) : Option (α × α) :=
  let val := (h00 - h11) * NdFloat.ofRat (1 / 2)
  let discr := h10 * h01 + val * val
  if NdFloat.le 0 discr then
    let sqrtDiscr := NdFloat.sqrt discr
    let halfTra := (h00 + h11) * NdFloat.ofRat (1 / 2)
    some (halfTra + sqrtDiscr, halfTra - sqrtDiscr)
  else none

/-- The mutable state of the main loop of `symmetric_eig`. -/
structure EigState (α : Type) where
  diag : Arr1 α
  off : Arr1 α
  q : Option (Arr2 α)
  start : Nat
  «end» : Nat

/-- The mutable state of the sweep `for i in start..n`, `/repo/src/eigh.rs:62`. -/
structure SweepState (α : Type) where
  diag : Arr1 α
  off : Arr1 α
  q : Option (Arr2 α)
  x : α
  y : α

/-- `g.rotate_rows(&mut q.slice_mut(s![.., c0..c0 + 2])).unwrap()` on an optional matrix. -/
def rotateColsPair (g : GivensRotation α) (c0 : Nat) : Option (Arr2 α) → M (Option (Arr2 α))
  | none => .ok none
  | some q => do
    let v ← q.slice 0 q.nr c0 (c0 + 2)
    let v ← unwrapM (g.rotateRows v)
    .ok (some (q.put 0 c0 v))

/-- The body of the sweep, `/repo/src/eigh.rs:63-97`. -/
def sweepStep (start n i : Nat) (st : SweepState α) : M (Step (SweepState α)) := do
  let j := i + 1
  match GivensRotation.cancelY st.x st.y with
  | none => .ok (.brk st)
  | some (rot, norm) => do
    let off ← (if start < i then st.off.atm (i - 1) norm else .ok st.off : M (Arr1 α))
    let cc := rot.c * rot.c
    let ss := rot.s * rot.s
    let cs := rot.c * rot.s
    let mii ← st.diag.at i
    let mjj ← st.diag.at j
    let mij ← off.at i
    let b := cs * mij * NdFloat.ofRat 2
    let diag ← st.diag.atm i (cc * mii + ss * mjj - b)
    let diag ← diag.atm j (ss * mii + cc * mjj + b)
    let off ← off.atm i (cs * (mii - mjj) + mij * (cc - ss))
    let (off, x, y) ← (
      if i ≠ n - 1 then do
        let x ← off.at i
        let o ← off.at (i + 1)
        let off ← off.atm (i + 1) (o * rot.c)
        .ok (off, x, -rot.s * o)
      else .ok (off, st.x, st.y) : M (Arr1 α × α × α))
    let q ← rotateColsPair rot.inverse i st.q
    .ok (.next ⟨diag, off, q, x, y⟩)

/-- The branch `subdim > 2`, `/repo/src/eigh.rs:55-102`. -/
def eigSweep (eps : α) (st : EigState α) : M (EigState α) := do
  let m := st.end - 1
  let n := st.end
  let ds ← st.diag.idx st.start
  let dm ← st.diag.idx m
  let dn ← st.diag.idx n
  let om ← st.off.idx m
  let y ← st.off.idx st.start
  let x := ds - wilkinsonShift dm dn om
  let r ← loopBrk (List.range' st.start (n - st.start))
    (⟨st.diag, st.off, st.q, x, y⟩ : SweepState α) (sweepStep st.start n)
  let om ← r.off.idx m
  let dm ← r.diag.idx m
  let dn ← r.diag.idx n
  let e :=
    if NdFloat.le (NdFloat.abs om) (eps * (NdFloat.abs dm + NdFloat.abs dn)) then st.end - 1
    else st.end
  .ok ⟨r.diag, r.off, r.q, st.start, e⟩

/-- The branch `subdim == 2`, `/repo/src/eigh.rs:103-123`. -/
def eig2x2 (eps : α) (st : EigState α) : M (EigState α) := do
  let d0 ← st.diag.idx st.start
  let o ← st.off.idx st.start
  let d1 ← st.diag.idx (st.start + 1)
  match compute2x2Eigvals d0 o o d1 with
  | none => .error .panic
  | some (l0, l1) => do
    let diag ← st.diag.idxSet st.start l0
    let diag ← diag.idxSet (st.start + 1) l1
    let q ← (
      match GivensRotation.tryNew (l0 - d1) o eps with
      | some (rot, _) => rotateColsPair rot st.start st.q
      | none => .ok st.q : M (Option (Arr2 α)))
    .ok ⟨diag, st.off, q, st.start, st.end - 1⟩

/-- One iteration of `while end != start`, `/repo/src/eigh.rs:52-127`. -/
def eigStep (eps : α) (st : EigState α) : M (EigState α) := do
  -- `end - start` overflows (panics) when `end < start`
  if st.end < st.start then .error .panic else
  let subdim := st.end - st.start + 1
  let st ← (if 2 < subdim then eigSweep eps st
    else if subdim = 2 then eig2x2 eps st else .ok st : M (EigState α))
  let (off, start, e) ← delimitSubproblem st.diag st.off st.end eps
  .ok ⟨st.diag, off, st.q, start, e⟩

/-- `while end != start { … }`, `/repo/src/eigh.rs:51`, run for at most `fuel` iterations. -/
def eigLoop (eps : α) : Nat → EigState α → M (EigState α)
  | 0, st => if st.end = st.start then .ok st else .error .fuel
  | fuel + 1, st =>
    if st.end = st.start then .ok st
    else do
      let st ← eigStep eps st
      eigLoop eps fuel st

/-- `symmetric_eig`, `/repo/src/eigh.rs:10-132`, with at most `fuel` iterations of its main loop. -/
def symmetricEig (fuel : Nat) (a : Arr2 α) (eigenvectors : Bool) (eps : α) :
    M (Arr1 α × Option (Arr2 α)) := do
  let dim ← checkSquare a
  if dim < 1 then .ok (Arr1.zeros 0, if eigenvectors then some (Arr2.zeros 0 0) else none)
  else do
    let amax := a.amax
    let t ← symTridiagonal (a.scaleDown amax)
    let q ← (if eigenvectors then (do let q ← t.generateQ; .ok (some q)) else .ok none : M (Option (Arr2 α)))
    let (diag, off) := t.intoDiagonals
    if dim = 1 then .ok (diag.map fun x => x * amax, q)
    else do
      let (off, start, e) ← delimitSubproblem diag off (dim - 1) eps
      let st ← eigLoop eps fuel ⟨diag, off, q, start, e⟩
      .ok (st.diag.map fun x => x * amax, st.q)

/-- `EighInto::eigh_into`, `/repo/src/eigh.rs:214-217`. -/
def eighInto (fuel : Nat) (a : Arr2 α) : M (Arr1 α × Arr2 α) := do
  let (val, vecs) ← symmetricEig fuel a true NdFloat.epsilon
  match vecs with
  | some v => .ok (val, v)
  | none => .error .panic

/-- `Eigh::eigh`, `/repo/src/eigh.rs:233-235`. -/
def eigh (fuel : Nat) (a : Arr2 α) : M (Arr1 α × Arr2 α) := eighInto fuel a

/-- `EigValshInto::eigvalsh_into`, `/repo/src/eigh.rs:249-251`. -/
def eigvalshInto (fuel : Nat) (a : Arr2 α) : M (Arr1 α) := do
  let (val, _) ← symmetricEig fuel a false NdFloat.epsilon
  .ok val

/-- `EigValsh::eigvalsh`, `/repo/src/eigh.rs:265-267`. -/
def eigvalsh (fuel : Nat) (a : Arr2 α) : M (Arr1 α) := eigvalshInto fuel a

end LinfaLinalg
