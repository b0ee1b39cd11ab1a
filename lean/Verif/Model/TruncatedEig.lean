import Verif.Model.Lobpcg

/-! # Model of `/repo/src/lobpcg/eig.rs`

As for `lobpcg`, the internal eigensolver is a parameter `eig`, to be instantiated with
`eighInto fuel`. -/

namespace LinfaLinalg

variable {α ρ : Type} [Zero α] [One α] [Add α] [Sub α] [Mul α] [Div α] [Neg α] [NdFloat α]

/-- The random number generator: `gen st` gives the entries of a random matrix (its shape is fixed by
the caller) after conversion to `A`, and the next state, `/repo/src/lobpcg/mod.rs:30-38` (`random`)
with `mapv(|x| NumCast::from(x).unwrap())`. The generator gets the shape as an argument. -/
structure RandomSource (α ρ : Type) where
  gen : Nat → Nat → ρ → (Nat → Nat → α) × ρ

/-- `random((r, c), &mut rng)`. -/
def RandomSource.random (R : RandomSource α ρ) (r c : Nat) (st : ρ) : Arr2 α × ρ :=
  let g := R.gen r c st
  (⟨r, c, g.1⟩, g.2)

/-- `struct TruncatedEig`, `/repo/src/lobpcg/eig.rs:40-48`. `precision` is modelled after its
conversion to `A`. -/
structure TruncatedEig (α ρ : Type) where
  order : Order
  problem : Arr2 α
  constraints : Option (Arr2 α)
  preconditioner : Option (Arr2 α)
  precision : α
  maxiter : Nat
  rng : ρ

/-- The literal `1e-5` (an `f32`) of `/repo/src/lobpcg/eig.rs:59` and `/repo/src/lobpcg/svd.rs:124`,
exactly. -/
def defaultPrecision : ℚ := 2748779 / 274877906944

/-- `TruncatedEig::new_with_rng`, `/repo/src/lobpcg/eig.rs:57-67`. -/
def TruncatedEig.new (problem : Arr2 α) (order : Order) (rng : ρ) : TruncatedEig α ρ :=
  { precision := NdFloat.ofRat defaultPrecision, maxiter := problem.nr * 2, preconditioner := none,
    constraints := none, order := order, problem := problem, rng := rng }

/-- `TruncatedEig::precision`, `/repo/src/lobpcg/eig.rs:79-83`. -/
def TruncatedEig.withPrecision (t : TruncatedEig α ρ) (precision : α) : TruncatedEig α ρ :=
  { t with precision := precision }

/-- `TruncatedEig::maxiter`, `/repo/src/lobpcg/eig.rs:89-93`. -/
def TruncatedEig.withMaxiter (t : TruncatedEig α ρ) (maxiter : Nat) : TruncatedEig α ρ :=
  { t with maxiter := maxiter }

/-- `TruncatedEig::orthogonal_to`, `/repo/src/lobpcg/eig.rs:99-103`. -/
def TruncatedEig.orthogonalTo (t : TruncatedEig α ρ) (constraints : Arr2 α) : TruncatedEig α ρ :=
  { t with constraints := some constraints }

/-- `TruncatedEig::precondition_with`, `/repo/src/lobpcg/eig.rs:109-113`. -/
def TruncatedEig.preconditionWith (t : TruncatedEig α ρ) (preconditioner : Arr2 α) :
    TruncatedEig α ρ :=
  { t with preconditioner := some preconditioner }

/-- `y.assign(&z)` of `ndarray`, as used in `/repo/src/lobpcg/eig.rs:157`: arrays of the shape of `y` are
copied, others are broadcast to that shape if their axes have its length or length one, and the call
panics if they cannot be. Returns the new value of `y`. -/
def Arr2.assign (y z : Arr2 α) : M (Arr2 α) :=
  if (z.nr = y.nr ∨ z.nr = 1) ∧ (z.nc = y.nc ∨ z.nc = 1) then
    .ok ⟨y.nr, y.nc, fun i j => z.get (if z.nr = y.nr then i else 0) (if z.nc = y.nc then j else 0)⟩
  else .error .panic

/-- The arguments `decompose` passes to `lobpcg`, `/repo/src/lobpcg/eig.rs:151-171`. -/
def TruncatedEig.params (t : TruncatedEig α ρ) : LobParams α where
  a := fun _ y => t.problem.dot y
  m := fun y => match t.preconditioner with
    | some p => do
      let z ← p.dot y
      y.assign z
    | none => .ok y
  y := t.constraints
  tol := t.precision
  order := t.order

/-- `TruncatedEig::decompose`, `/repo/src/lobpcg/eig.rs:138-172`; also returns the new state of the
random number generator (the only field that is modified). -/
def TruncatedEig.decompose (eig : EigSolver α) (R : RandomSource α ρ) (t : TruncatedEig α ρ)
    (num : Nat) : M (LobpcgResult α × TruncatedEig α ρ) :=
  if num = 0 then .ok (.ok ⟨Arr1.zeros 0, Arr2.zeros 0 0, []⟩, t)
  else do
    let x := R.random t.problem.nr num t.rng
    let (res, _) ← lobpcgRun eig t.params x.1 t.maxiter
    .ok (res, { t with rng := x.2 })

/-- `struct TruncatedEigIterator`, `/repo/src/lobpcg/eig.rs:220-224`. -/
structure TruncatedEigIterator (α ρ : Type) where
  stepSize : Nat
  remaining : Nat
  eig : TruncatedEig α ρ

/-- `IntoIterator::into_iter`, `/repo/src/lobpcg/eig.rs:179-185`. -/
def TruncatedEig.intoIter (t : TruncatedEig α ρ) : TruncatedEigIterator α ρ :=
  { stepSize := 1, remaining := t.problem.nr, eig := t }

/-- `TruncatedEigIterator::new` and `TruncatedEig::into_iter_step_size`,
`/repo/src/lobpcg/eig.rs:189-191, 227-237`. -/
def TruncatedEig.intoIterStepSize (t : TruncatedEig α ρ) (stepSize : Nat) :
    M (TruncatedEigIterator α ρ) :=
  if stepSize < 1 then .error .panic
  else .ok { remaining := t.problem.nr, eig := t, stepSize := stepSize }

/-- `stack(Axis(1), &columns).unwrap()` of the columns of `c` followed by the columns of `v`,
`/repo/src/lobpcg/eig.rs:274-280`. `stack` fails without columns and for columns of unequal length. -/
def stackCols (c v : Arr2 α) : M (Arr2 α) :=
  if c.nc + v.nc = 0 then .error .panic
  else if c.nc ≠ 0 ∧ v.nc ≠ 0 ∧ c.nr ≠ v.nr then .error .panic
  else .ok ⟨if c.nc = 0 then v.nr else c.nr, c.nc + v.nc,
    fun i j => if j < c.nc then c.get i j else v.get i (j - c.nc)⟩

/-- The result carried by an outcome of the solver: `Ok(l) | Err((_, Some(l)))`,
`/repo/src/lobpcg/eig.rs:252-264` and `/repo/src/lobpcg/svd.rs:224-232`. -/
def LobpcgResult.result (r : LobpcgResult α) : Option (Lobpcg α) :=
  match r with
  | .ok l => some l
  | .error (_, l) => l

/-- `TruncatedEigIterator::next`, `/repo/src/lobpcg/eig.rs:243-292`; returns the item and the iterator
afterwards. -/
def TruncatedEigIterator.next (eig : EigSolver α) (R : RandomSource α ρ)
    (it : TruncatedEigIterator α ρ) :
    M (Option (Arr1 α × Arr2 α) × TruncatedEigIterator α ρ) :=
  if it.remaining = 0 then .ok (none, it)
  else do
    let stepSize := min it.stepSize it.remaining
    let (res, t) ← it.eig.decompose eig R stepSize
    let it := { it with eig := t }
    match LobpcgResult.result res with
    | none => .ok (none, it)
    | some l =>
      if l.rnorm.any (fun r => NdFloat.lt (NdFloat.ofRat (1 / 10)) r) then .ok (none, it)
      else do
        let c ← (match t.constraints with
          | some c => stackCols c l.eigvecs
          | none => .ok l.eigvecs : M (Arr2 α))
        .ok (some (l.eigvals, l.eigvecs),
          { it with eig := { t with constraints := some c }, remaining := it.remaining - stepSize })

end LinfaLinalg
