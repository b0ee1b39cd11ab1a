namespace LinfaLinalg

instance : Zero Float := ⟨0.0⟩
instance : One Float := ⟨1.0⟩

def Float.signBit (x : Float) : Bool := x.toBits >>> 63 == 1

instance : NdFloat Float where
  sqrt := Float.sqrt
  abs := Float.abs
  signum x := if x.isNaN then x else if Float.signBit x then -1.0 else 1.0
  hypot x y :=
    let a := Float.abs x; let b := Float.abs y
    let m := if a < b then b else a
    let n := if a < b then a else b
    if m == 0.0 then 0.0 else m * Float.sqrt (1.0 + (n / m) * (n / m))
  max x y := if x.isNaN then y else if y.isNaN then x else if x < y then y else x
  lt x y := x < y
  le x y := x ≤ y
  isZero x := x == 0.0
  isSignNeg := Float.signBit
  ofRat q := Float.ofInt q.num / Float.ofNat q.den
  negInf := -1.0 / 0.0
  epsilon := 2.220446049250313e-16

instance : MagnitudeCorrection Float := ⟨1.0e6⟩

abbrev V := Arr1 Float
abbrev Mt := Arr2 Float

def rows (r c : Nat) (l : List (List Float)) : Mt :=
  Arr2.memo ⟨r, c, fun i j => (l.getD i []).getD j 0.0⟩
def vec (l : List Float) : V := Arr1.memo ⟨l.length, fun i => l.getD i 0.0⟩
def eye (n : Nat) : Mt := Arr2.eye n n

def near1 (eps : Float) (a b : V) : Bool :=
  a.len == b.len && (List.range a.len).all fun i => (a.get i - b.get i).abs ≤ eps
def near (eps : Float) (a b : Mt) : Bool :=
  a.nr == b.nr && a.nc == b.nc && (List.range a.nr).all fun i => (List.range a.nc).all fun j =>
    (a.get i j - b.get i j).abs ≤ eps
def tiny : Float := 2.220446049250313e-16

/-- A test: its name, and an outcome of `true`. -/
structure Test where
  name : String
  run : Unit → M Bool

def isErr {β : Type} (m : M β) (e : LinalgError) : M Bool :=
  match m with
  | .error (.err e') => .ok (e == e')
  | _ => .ok false

def fuel : Nat := 10000

-- the random number generator of the tests: xoshiro256+, seeded through SplitMix64
structure Rng where
  s0 : UInt64
  s1 : UInt64
  s2 : UInt64
  s3 : UInt64

def splitmix (x : UInt64) : UInt64 × UInt64 :=
  let x := x + 0x9e3779b97f4a7c15
  let z := x
  let z := (z ^^^ (z >>> 30)) * 0xbf58476d1ce4e5b9
  let z := (z ^^^ (z >>> 27)) * 0x94d049bb133111eb
  (z ^^^ (z >>> 31), x)

def Rng.seed (x : UInt64) : Rng :=
  let (a, x) := splitmix x
  let (b, x) := splitmix x
  let (c, x) := splitmix x
  let (d, _) := splitmix x
  ⟨a, b, c, d⟩

def Rng.next (r : Rng) : UInt64 × Rng :=
  let out := r.s0 + r.s3
  let t := r.s1 <<< 17
  let s2 := r.s2 ^^^ r.s0
  let s3 := r.s3 ^^^ r.s1
  let s1 := r.s1 ^^^ s2
  let s0 := r.s0 ^^^ s3
  let s2 := s2 ^^^ t
  let s3 := (s3 <<< 45) ||| (s3 >>> 19)
  (out, ⟨s0, s1, s2, s3⟩)

/-- `rng.gen::<f64>()` -/
def Rng.f64 (r : Rng) : Float × Rng :=
  let (x, r) := r.next
  ((x >>> 11).toFloat / 9007199254740992.0, r)

/-- `rng.gen::<f32>()` -/
def Rng.f32 (r : Rng) : Float × Rng :=
  let (x, r) := r.next
  ((x >>> 40).toFloat / 16777216.0, r)

def Rng.list (g : Rng → Float × Rng) : Nat → Rng → List Float → List Float × Rng
  | 0, r, acc => (acc.reverse, r)
  | n + 1, r, acc => let (x, r) := g r; Rng.list g n r (x :: acc)

def source (g : Rng → Float × Rng) : RandomSource Float Rng where
  gen r c st :=
    let (l, st) := Rng.list g (r * c) st []
    let a := l.toArray
    (fun i j => a.getD (i * c + j) 0.0, st)

def randomMat (r c : Nat) (seed : UInt64) : Mt := Arr2.memo ((source Rng.f64).random r c (Rng.seed seed)).1

/-- A matrix with entries in -100..100. -/
def draw (r c k : Nat) : Mt := (randomMat r c (UInt64.ofNat (1000 * k + 10 * r + c))).map (· * 200 - 100)
/-- A dimension in 1..10. -/
def dim (k salt : Nat) : Nat := ((Rng.seed (UInt64.ofNat (97 * k + salt))).next.1 >>> 20).toNat % 10 + 1
def symm (a : Mt) : Mt := Arr2.memo ⟨a.nr, a.nc, fun i j => if j < i then a.get j i else a.get i j⟩
def hpd (k : Nat) : M Mt := do
  let a := draw (dim k 1) (dim k 1) k
  let m ← a.t.dot a
  .ok (Arr2.memo ⟨m.nr, m.nc, fun i j => if i == j then m.get i j + 1 else m.get i j⟩)
def up (l : List Float) : Bool := (l.zip (l.drop 1)).all fun (x, y) => x ≤ y
def cases (n : Nat) (f : Nat → M Bool) : M Bool := do
  for k in List.range n do
    let b ← f k
    if !b then return false
  return true

def tests : List Test := [
  -- reflection.rs
  ⟨"reflection::reflect_plane_col", fun _ => do
    let v := (rows 2 3 [[1, 2, 3], [3, 4, 5]]).t
    let w ← reflectCols (vec [0, 1, 0]) 0.0 v
    let w2 ← reflectCols (vec [0, 1, 0]) 0.0 w
    let w3 ← reflectCols (vec [0, 1, 0]) 3.0 v
    .ok (near tiny w (rows 2 3 [[1, -2, 3], [3, -4, 5]]).t && near tiny w2 v &&
      near tiny w3 (rows 2 3 [[1, 4, 3], [3, 2, 5]]).t)⟩,
  ⟨"reflection::reflect_plane_row", fun _ => do
    let v := rows 2 3 [[1, 2, 3], [3, 4, 5]]
    let w ← reflectRows (vec [0, 1, 0]) 0.0 v
    let w2 ← reflectRows (vec [0, 1, 0]) 0.0 w
    let w3 ← reflectRows (vec [0, 1, 0]) 3.0 v
    .ok (near tiny w (rows 2 3 [[1, -2, 3], [3, -4, 5]]) && near tiny w2 v && near tiny w3 (rows 2 3 [[1, 4, 3], [3, 2, 5]]))⟩,
  -- tridiagonal.rs
  ⟨"tridiagonal::sym_tridiagonal", fun _ => do
    let arr := rows 4 4 [[4, 1, -2, 2], [1, 2, 0, 1], [-2, 0, 3, -2], [2, 1, -2, -1]]
    let d ← symTridiagonal arr
    let (diag, off) := d.intoDiagonals
    let q ← d.generateQ
    let tri ← d.intoTridiagMatrix
    let qt ← q.dot tri
    let qtq ← qt.dot q.t
    let qq ← q.dot q.t
    let one ← symTridiagonal (rows 1 1 [[1.1]])
    let (d1, o1) := one.intoDiagonals
    .ok (near1 1e-5 diag (vec [4, 10 / 3, -33 / 25, 149 / 75]) && near1 1e-5 off (vec [3, 5 / 3, 68 / 75]) &&
      near 1e-9 qtq arr && near 1e-9 qq (eye 4) && near1 tiny d1 (vec [1.1]) && o1.len == 0)⟩,
  ⟨"tridiagonal::sym_tridiag_error", fun _ => do
    let a ← isErr (symTridiagonal (rows 2 3 [[1, 2, 3], [5, 4, 3]])) (.notSquare 2 3)
    let b ← isErr (symTridiagonal (rows 0 0 [])) .emptyMatrix
    .ok (a && b)⟩,
  -- eigh.rs
  ⟨"eigh::eigvals_2x2", fun _ =>
    let ok (r : Option (Float × Float)) (x y : Float) : Bool := match r with
      | some (a, b) => (a - x).abs ≤ 1e-5 && (b - y).abs ≤ 1e-5
      | none => false
    .ok (ok (compute2x2Eigvals 5.0 4.0 3.0 2.0) 7.2749172 (-0.2749172) &&
      ok (compute2x2Eigvals 6.0 2.0 (-1.0) 3.0) 5 4 && ok (compute2x2Eigvals 6.0 2.0 2.0 6.0) 8 4 &&
      (compute2x2Eigvals (-2.0 : Float) 3.0 (-3.0) (-2.0)).isNone)⟩,
  ⟨"eigh::symm_eigvals", fun _ => do
    let (v, q) ← symmetricEig fuel (rows 2 2 [[6, 2], [2, 6]]) false tiny
    let (w, _) ← symmetricEig fuel (rows 3 3 [[1, -5, 7], [-5, 2, -9], [7, -9, 3]]) false tiny
    let w ← sortEigVals w .smallest
    .ok (near1 tiny v (vec [8, 4]) && q.isNone && near1 1e-5 w (vec [-6.86819, -3.41558, 16.28378]))⟩,
  ⟨"eigh::sym_eigvecs1-3", fun _ =>
    let t (a : Mt) (exp : V) : M Bool := do
      let (vals, vecs) ← eigh fuel a
      let (vals, vecs) ← sortEig vals vecs .largest
      let s ← vecs.t.dot vecs
      let av ← a.dot vecs
      let ev ← vecs.scaleCols vals
      .ok (near1 1e-5 vals exp && near 1e-5 s (eye a.nr) && near 1e-5 av ev)
    do
      let a ← t (rows 3 3 [[3, 1, 1], [1, 3, 1], [1, 1, 3]]) (vec [5, 2, 2])
      let b ← t (rows 2 2 [[6, 2], [2, 6]]) (vec [8, 4])
      let c ← t (rows 3 3 [[1, -5, 7], [-5, 2, -9], [7, -9, 3]]) (vec [16.28378, -3.41558, -6.86819])
      .ok (a && b && c)⟩,
  ⟨"eigh::corner", fun _ => do
    let (a, b) ← symmetricEig fuel (rows 0 0 []) false tiny
    let (c, d) ← symmetricEig fuel (rows 0 0 []) true tiny
    let _ ← eigh fuel (rows 1 1 [])
    let _ ← eigh fuel (rows 4 4 [])
    let e ← isErr (eigh fuel (rows 3 1 [])) (.notSquare 3 1)
    let _ ← eigh fuel (rows 2 2 [[5, 4], [3, 2]])
    let _ ← eigh fuel (rows 2 2 [[-2, 3], [-3, -2]])
    .ok (a.len == 0 && b.isNone && c.len == 0 && d.isSome && e)⟩,
  -- bidiagonal.rs
  ⟨"bidiagonal::bidiagonal_lower/upper", fun _ =>
    let t (arr : Mt) (lower : Bool) : M Bool := do
      let d ← bidiagonal arr
      let u ← d.generateU
      let vt ← d.generateVt
      let b ← d.intoB
      let (diag, off) := d.intoDiagonals
      let uu ← u.t.dot u
      let vv ← vt.dot vt.t
      let ub ← u.dot b
      let ubv ← ub.dot vt
      let part ← (if lower then b.slice 1 3 0 3 else b.slice 0 3 1 3 : M Mt)
      .ok (u.nr == arr.nr && u.nc == 3 && b.nr == 3 && b.nc == 3 && vt.nr == 3 && vt.nc == arr.nc &&
        near 1e-5 uu (eye 3) && near 1e-5 vv (eye 3) && near 1e-5 ubv arr && near1 tiny diag b.diag &&
        near1 tiny off part.diag)
    do
      let a ← t (rows 3 4 [[4, 0, 2, 2], [-2, 6, 3, -2], [2, 7, -3.2, -1]]) true
      let b ← t (rows 4 3 [[4, 0, 2], [-2, 6, 3], [2, 7, -3.2], [4, -3, 0.2]]) false
      let e ← isErr (bidiagonal (rows 0 0 [])) .emptyMatrix
      .ok (a && b && e)⟩,
  -- givens.rs
  ⟨"givens::cancel_y/cancel_x", fun _ =>
    match GivensRotation.cancelY (1.0 : Float) 2.0, GivensRotation.cancelX (1.0 : Float) 2.0 with
    | some (g, r), some (h, q) => .ok ((r - Float.sqrt 5).abs ≤ tiny && (g.c - 0.4472136).abs ≤ 1e-5 &&
        (g.s + 0.8944272).abs ≤ 1e-5 && (g.c * 1 - g.s * 2 - r).abs ≤ tiny && (g.s * 1 + g.c * 2).abs ≤ tiny &&
        (q - Float.sqrt 5).abs ≤ tiny && (h.c * 1 - h.s * 2).abs ≤ tiny && (h.s * 1 + h.c * 2 - q).abs ≤ tiny &&
        (GivensRotation.cancelY (3.0 : Float) 0.0).isNone)
    | _, _ => .ok false⟩,
  ⟨"givens::rotate_rows/rotate_cols", fun _ =>
    match GivensRotation.cancelY (1.0 : Float) 2.0 with
    | some (g, _) => do
      let r := rows 4 2 [[2, 3], [4, 5], [1, 2], [3, 4]]
      let out ← g.rotateRows r
      let gm := rows 2 2 [[g.c, -g.s], [g.s, g.c]]
      let p ← r.dot gm
      let c := rows 2 3 [[2, 3, 4], [3, 4, 5]]
      let out2 ← g.rotateCols c
      let p2 ← gm.dot c
      let e1 ← isErr (g.rotateRows (rows 1 3 [[1, 2, 3]])) (.wrongColumns 2 3)
      let e2 ← isErr (g.rotateCols (rows 1 3 [[1, 2, 3]])) (.wrongRows 2 1)
      .ok (near 1e-5 p out && near 1e-5 p2 out2 && e1 && e2)
    | none => .ok false⟩,
  -- qr.rs
  ⟨"qr::qr", fun _ => do
    let d ← qrInto (rows 3 2 [[3.2, 1.3], [4.4, 5.2], [1.3, 6.7]])
    let (q, r) ← d.intoDecomp
    let z ← qrInto (rows 2 2 [])
    let (q0, r0) ← z.intoDecomp
    .ok (near 1e-5 q (rows 3 2 [[0.5720674, -0.4115578], [0.7865927, 0.0301901], [0.2324024, 0.9108835]]) &&
      near 1e-3 r (rows 2 2 [[5.594, 6.391], [0, 5.725]]) && near tiny q0 (eye 2) && near tiny r0 (rows 2 2 []))⟩,
  ⟨"qr::solve", fun _ => do
    let x := rows 2 3 [[3.2, 1.3, 4.4], [5.2, 1.3, 6.7]]
    let t (a : Mt) : M Bool := do
      let b ← a.dot x
      let d ← qrInto a
      let s ← d.solveInto b
      .ok (near 1e-5 s x)
    let p ← t (rows 2 2 [[1, 9.80], [-7, 3.3]])
    let q ← t (rows 3 2 [[3.2, 1.3], [4.4, 5.2], [1.3, 6.7]])
    let d ← qrInto (eye 2)
    let z ← d.solveInto (rows 2 3 [])
    .ok (p && q && near tiny z (rows 2 3 []))⟩,
  ⟨"qr::solve_tr", fun _ => do
    let a := rows 2 2 [[1, 9.80], [-7, 3.3]]
    let x := rows 2 3 [[3.2, 1.3, 4.4], [5.2, 1.3, 6.7]]
    let b ← a.dot x
    let d ← qrInto a.t
    let s ← d.solveTrInto b
    let a2 := (rows 3 2 [[3.2, 1.3], [4.4, 5.2], [1.3, 6.7]]).t
    let b2 ← a2.dot x.t
    let d2 ← qrInto a2.t
    let s2 ← d2.solveTrInto b2
    let c2 ← a2.dot s2
    .ok (near 1e-5 s x && near 1e-7 b2 c2)⟩,
  ⟨"qr::inverse/non_invertible/corner", fun _ => do
    let d ← qrInto (rows 2 2 [[1, 9.80], [-7, 3.3]])
    let i ← d.inverse
    let d1 ← qrInto (eye 2)
    let i1 ← d1.inverse
    let d0 ← qrInto (rows 2 2 [])
    let e1 ← isErr d0.inverse .nonInvertible
    let e2 ← isErr (leastSquares (rows 2 2 []) (rows 2 2 [])) .nonInvertible
    let e3 ← isErr (leastSquares (rows 2 3 []) (rows 2 2 [])) .nonInvertible
    let dd ← qrInto (rows 0 0 [])
    let (q, r) ← dd.intoDecomp
    let e4 ← isErr (qrInto (rows 2 3 [])) (.notThin 2 3)
    let d3 ← qrInto (rows 3 2 [])
    let e5 ← isErr d3.inverse (.notSquare 3 2)
    .ok (near 1e-4 i (rows 2 2 [[0.04589, -0.1363], [0.09735, 0.0139]]) && near tiny i1 (eye 2) && e1 && e2 && e3 &&
      q.nr * q.nc == 0 && r.nr * r.nc == 0 && e4 && e5)⟩,
  ⟨"qr::qt_mul", fun _ => do
    let b := rows 2 3 [[3.2, 1.3, 4.4], [5.2, 1.3, 6.7]]
    let d ← qrInto (rows 2 2 [[1, 9.80], [-7, 3.3]])
    let q ← d.generateQ
    let res ← q.t.dot b
    let o ← d.qtMul b
    let d2 ← qrInto (rows 3 2 [[3.2, 1.3], [4.4, 5.2], [1.3, 6.7]])
    let q2 ← d2.generateQ
    let res2 ← q2.t.dot b.t
    let o2 ← d2.qtMul b.t
    let o2 ← o2.slice 0 2 0 2
    .ok (near 1e-7 o res && near 1e-7 o2 res2)⟩,
  -- householder.rs
  ⟨"householder::householder", fun _ => do
    let (a, r) ← reflectionAxisMut (vec [1.5, 2, 3])
    let (b, s) ← reflectionAxisMut (vec [-3, 0, 0, 0])
    let (c, t) ← reflectionAxisMut (vec [0, 0])
    .ok ((sumTo 3 (fun i => a.get i * a.get i) - 1).abs ≤ 1e-4 && ((r.getD 0) + 3.90512).abs ≤ 1e-4 && near1 1e-4 a (vec [0.8319, 0.3078, 0.4617]) &&
      ((s.getD 0) - 3).abs ≤ 1e-4 && near1 1e-4 b (vec [-1, 0, 0, 0]) && t.isNone && near1 tiny c (vec [0, 0]))⟩,
  -- svd.rs
  ⟨"svd::svd_test", fun _ => do
    let (u, s, vt) ← svdGo fuel (rows 2 2 [[3, 0], [0, -2]]) true true 1e-15
    let (u1, s1, v1) ← sortSvd u s vt .largest
    let (u2, s2, v2) ← sortSvd u s vt .smallest
    let z := rows 0 0 []
    let (u3, s3, v3) ← svdGo fuel (rows 2 3 [[1, 0, -1], [-2, 1, 4]]) false false 1e-15
    .ok (near1 1e-7 s1 (vec [3, 2]) && near 1e-7 (u1.getD z) (rows 2 2 [[1, 0], [0, -1]]) &&
      near 1e-7 (v1.getD z) (eye 2) && near1 1e-7 s2 (vec [2, 3]) &&
      near 1e-7 (u2.getD z) (rows 2 2 [[0, 1], [-1, 0]]) && near 1e-7 (v2.getD z) (rows 2 2 [[0, 1], [1, 0]]) &&
      near1 1e-5 s3 (vec [0.51371, 4.76824]) && u3.isNone && v3.isNone)⟩,
  ⟨"svd::svd_props", fun _ =>
    let z := rows 0 0 []
    let t (a : Mt) (exp : V) : M Bool := do
      let run (cu cv : Bool) : M (Option Mt × V × Option Mt) := do
        let (u, s, vt) ← svdGo fuel a cu cv 1e-15
        sortSvd u s vt .largest
      let (u, s, vt) ← run true true
      let us ← (u.getD z).dot (Arr2.fromDiag s)
      let usv ← us.dot (vt.getD z)
      let (u2, s2, vt2) ← run false true
      let (u3, s3, vt3) ← run true false
      let (u4, s4, vt4) ← run false false
      .ok (near1 1e-5 s exp && s.toList.all (fun x => !Float.signBit x) && near 1e-5 usv a && u2.isNone &&
        near1 1e-9 s2 s && near 1e-9 (vt2.getD z) (vt.getD z) && vt3.isNone && near1 1e-9 s3 s &&
        near 1e-9 (u3.getD z) (u.getD z) && u4.isNone && vt4.isNone && near1 1e-9 s4 s)
    do
      let a ← t (rows 1 3 [[-2, 1, 4]]) (vec [Float.sqrt 21])
      let b ← t (rows 2 2 [[1, 1], [1, 1]]) (vec [2, 0])
      let c ← t (rows 3 2 [[-3, 4], [4.3, 2.1], [6.6, 8.7]]) (vec [11.80876, 5.2633658])
      let d ← t (rows 3 3 [[10.74785316637712, -5.994983325167452, -6.064492921857296],
        [-4.149751381521569, 20.654504205822462, -4.470436210703133],
        [-22.772715014220207, -1.4554372570788008, 18.108113992170573]]).t (vec [31.6188022, 22.3811978, 0])
      .ok (a && b && c && d)⟩,
  ⟨"svd::svd_corner", fun _ => do
    let e ← isErr (svdGo fuel (rows 0 1 []) false false 1e-15) .emptyMatrix
    let (u, s, vt) ← svdGo fuel (rows 1 1 [[0]]) true true 1e-15
    let z := rows 0 0 []
    .ok (e && near1 tiny s (vec [0]) && near tiny (u.getD z) (eye 1) && near tiny (vt.getD z) (eye 1))⟩,
  -- triangular.rs
  ⟨"triangular::corner_cases/non_square/square", fun _ => do
    let e := rows 0 0 []
    let a ← isTriangular e .lower
    let b ← isTriangular e .upper
    let r := rows 2 3 [[1, 2, 3], [3, 4, 5]]
    let c ← isTriangular r .lower
    let d ← isErr (intoTriangular r .lower) (.notSquare 2 3)
    let s := rows 3 3 [[1, 2, 3], [4, 5, 6], [7, 8, 9]]
    let u ← intoTriangular s .upper
    let l ← intoTriangular s .lower
    let x1 ← isTriangular s .lower
    let x2 ← isTriangular u .lower
    let x3 ← isTriangular u .upper
    let x4 ← isTriangular l .lower
    let x5 ← isTriangular l .upper
    .ok (a && b && !c && d && near 0 u (rows 3 3 [[1, 2, 3], [0, 5, 6], [0, 0, 9]]) &&
      near 0 l (rows 3 3 [[1, 0, 0], [4, 5, 0], [7, 8, 9]]) && !x1 && !x2 && x3 && x4 && !x5)⟩,
  ⟨"triangular::solve_*", fun _ => do
    let x := rows 2 3 [[2.2, 3.1, 2.2], [1, 0, 5.7]]
    let l := rows 2 2 [[1, 0], [3, 4]]
    let u := rows 2 2 [[4.4, 2.1], [0, 4.3]]
    let bl ← l.dot x
    let bu ← u.dot x
    let xl ← solveTriangular l bl .lower
    let xu ← solveTriangular u bu .upper
    let em ← solveTriangular (rows 0 0 []) (rows 0 0 []) .upper
    let one ← solveTriangular (eye 1) (eye 1) .upper
    let _ ← solveTriangular (rows 2 2 [[0, 3], [2, 0]]) (rows 2 2 []) .lower
    let ns := rows 1 2 [[1.2, 3.3]]
    let e1 ← isErr (solveTriangular ns ns .lower) (.notSquare 1 2)
    let e2 ← isErr (solveTriangular (rows 2 2 [[1.1, 2.2], [3.3, 2.1]]) (rows 1 2 [[2.2, 3.3]]) .upper) (.wrongRows 2 1)
    .ok (near 1e-7 xl x && near 1e-7 xu x && em.nr == 0 && em.nc == 0 && near tiny one (eye 1) && e1 && e2)⟩,
  -- cholesky.rs
  ⟨"cholesky::decompose/solvec/invc", fun _ => do
    let a := rows 3 3 [[25, 15, -5], [15, 18, 0], [-5, 0, 11]]
    let c ← cholesky a
    let cc ← c.dot c.t
    let x := rows 3 4 [[10, -3, 2.2, 4], [0, 2.4, -0.9, 1.1], [5.5, 7.6, 8.1, 10]]
    let b ← a.dot x
    let s ← solvec a b
    let i ← invc a
    let ai ← a.dot i
    .ok (near 1e-7 c (rows 3 3 [[5, 0, 0], [3, 3, 0], [-1, 1, 3]]) && near 1e-7 cc a && near 1e-7 s x &&
      near tiny ai (eye 3))⟩,
  ⟨"cholesky::bad_matrix/corner_cases", fun _ => do
    let r := rows 2 3 [[1, 2, 3], [3, 4, 5]]
    let e1 ← isErr (cholesky r) (.notSquare 2 3)
    let e2 ← isErr (solvec r (rows 2 3 [])) (.notSquare 2 3)
    let n := rows 2 2 [[1, 2], [2, 1]]
    let e3 ← isErr (cholesky n) .notPositiveDefinite
    let e4 ← isErr (solvec n (rows 2 3 [])) .notPositiveDefinite
    let e5 ← isErr (cholesky (rows 2 2 [])) .notPositiveDefinite
    let z ← cholesky (rows 0 0 [])
    let zi ← invc (rows 0 0 [])
    let o ← cholesky (eye 1)
    let oi ← invc (eye 1)
    .ok (e1 && e2 && e3 && e4 && e5 && z.nr == 0 && zi.nr == 0 && near 0 o (eye 1) && near 0 oi (eye 1))⟩,
  -- norm.rs
  ⟨"norm::norms", fun _ =>
    let l : List Float := (rows 2 2 [[1, -3], [2, -8]]).toList
    .ok (normL1 l == 14 && (normL2 l - Float.sqrt 78).abs ≤ tiny && normMax l == 8)⟩,
  -- lobpcg/algorithm.rs
  ⟨"lobpcg::algorithm::test_sorted_eigen", fun _ => do
    let m := (randomMat 10 10 3).map (· * 10)
    let m ← m.t.dot m
    let (vals, vecs) ← sortedEig (eighInto fuel) m none 10 .largest
    let vd ← vecs.dot (Arr2.fromDiag vals)
    let rec_ ← vd.dot vecs.t
    .ok (near 1e-5 m rec_)⟩,
  ⟨"lobpcg::algorithm::test_masking", fun _ => do
    let m := (randomMat 10 5 3).map (· * 10)
    let k ← ndarrayMask m [true, true, false, true, false]
    let a ← k.slice 0 10 2 3
    let b ← m.slice 0 10 3 4
    .ok (near 1e-12 a b)⟩,
  ⟨"lobpcg::algorithm::test_orthonormalize", fun _ => do
    let m := (randomMat 10 10 3).map (· * 10)
    let (n, l) ← orthonormalize m
    let i ← n.dot n.t
    let d ← qrInto m
    let r ← d.intoR
    .ok (near 1e-2 i (eye 10) && near 1e-2 (r.map Float.abs) (l.t.map Float.abs))⟩,
  ⟨"lobpcg::algorithm::test_generalized_eigenvalue", fun _ => do
    let m := randomMat 10 10 3
    let m ← m.t.dot m
    let d ← qrInto m
    let inv ← d.inverse
    let (vals, _) ← sortedEig (eighInto fuel) m (some m) 10 .largest
    let (v1, _) ← sortedEig (eighInto fuel) m (some (eye 10)) 10 .largest
    let (v2, _) ← sortedEig (eighInto fuel) (eye 10) (some inv) 10 .largest
    .ok (near1 1e-4 vals (vec (List.replicate 10 1)) && near1 1e-5 v1 v2)⟩,
  ⟨"lobpcg::algorithm::test_eigsolver_diag/constructed", fun _ =>
    let t (a : Mt) (order : Order) (num : Nat) (truth : List Float) : M Bool := do
      let n := a.nr
      let r ← lobpcg fuel ⟨fun _ y => a.dot y, fun y => .ok y, none, 1e-6, order⟩ (randomMat n num 3) (n * 3)
      match LobpcgResult.result r with
      | none => .ok false
      | some l => .ok (l.rnorm.all (fun x => x ≤ 1e-5) && near1 (Float.ofNat num * 5e-5) l.eigvals (vec truth))
    do
      let a : Mt := Arr2.fromDiag (vec ((List.range 20).map fun i => Float.ofNat (i + 1)))
      let p ← t a .largest 3 [20, 19, 18]
      let q ← t a .smallest 3 [1, 2, 3]
      let (v, _) ← orthonormalize (randomMat 50 50 3)
      let d : Mt := Arr2.fromDiag (vec ((List.range 50).map fun i => 50 - 2 * Float.ofNat i))
      let dv ← d.dot v.t
      let b ← v.dot dv
      let p2 ← t b .largest 5 [50, 48, 46, 44, 42]
      let q2 ← t b .smallest 5 [-48, -46, -44, -42, -40]
      .ok (p && q && p2 && q2)⟩,
  ⟨"lobpcg::algorithm::test_eigsolver_constrained", fun _ => do
    let a : Mt := Arr2.fromDiag (vec [1, 2, 3, 4, 5, 6, 7, 8, 9, 10])
    let y : Mt := Arr2.memo ⟨10, 2, fun i j => if i == j then 1.0 else 0.0⟩
    let r ← lobpcg fuel ⟨fun _ y => a.dot y, fun y => .ok y, some y, 1e-10, .smallest⟩ (randomMat 10 1 3) 50
    match LobpcgResult.result r with
    | none => .ok false
    | some l => .ok (l.rnorm.all (fun x => x ≤ 0.01) && near1 1e-6 l.eigvals (vec [3]) &&
        near 1e-5 (l.eigvecs.map Float.abs) (Arr2.memo ⟨10, 1, fun i _ => if i == 2 then 1.0 else 0.0⟩))⟩,
  -- lobpcg/eig.rs
  ⟨"lobpcg::eig::test_truncated_eig", fun _ => do
    let a : Mt := Arr2.fromDiag (vec ((List.range 20).map fun i => Float.ofNat (i + 1)))
    let t : TruncatedEig Float Rng := { TruncatedEig.new a .largest (Rng.seed 42) with maxiter := 500 }
    let it := t.intoIter
    let (x, it) ← it.next (eighInto fuel) (source Rng.f64)
    let (y, it) ← it.next (eighInto fuel) (source Rng.f64)
    let (z, _) ← it.next (eighInto fuel) (source Rng.f64)
    match x, y, z with
    | some x, some y, some z =>
      let d (v : V) (t : Float) : Float := (v.get 0 - t) * (v.get 0 - t)
      .ok (d x.1 20 + d y.1 19 + d z.1 18 < 0.01)
    | _, _, _ => .ok false⟩,
  -- lobpcg/svd.rs
  ⟨"lobpcg::svd::test_truncated_svd", fun _ => do
    let a := rows 2 3 [[3, 2, 2], [2, 3, -2]]
    let t : TruncatedSvd Float Rng := { TruncatedSvd.new a .largest (Rng.seed 42) with maxiter := 10 }
    let r ← t.decompose (eighInto fuel) (source Rng.f32) 2
    let (_, s, _) ← r.valuesVectors
    .ok (near1 1e-5 s (vec [5, 3]))⟩,
  ⟨"lobpcg::svd::test_truncated_svd_random", fun _ => do
    let a := randomMat 50 10 3
    let t : TruncatedSvd Float Rng := { TruncatedSvd.new a .largest (Rng.seed 42) with maxiter := 10 }
    let r ← t.decompose (eighInto fuel) (source Rng.f32) 10
    let (u, s, vt) ← r.valuesVectors
    let sv ← (Arr2.fromDiag s).dot vt
    let usv ← u.dot sv
    .ok (near 1e-5 a usv)⟩,
  -- /repo/tests: the same assertions, on matrices drawn as in tests/common.rs (dimensions 1..10, entries -100..100)
  ⟨"tests/bidiagonal.rs", fun _ => cases 40 fun k => do
    let a := draw (dim k 1) (dim k 2) k
    let d ← bidiagonal a
    let u ← d.generateU
    let vt ← d.generateVt
    let b ← d.intoB
    let (diag, off) := d.intoDiagonals
    let uu ← (if a.nr > a.nc then u.t.dot u else u.dot u.t : M Mt)
    let vv ← vt.dot vt.t
    let ub ← u.dot b
    let ubv ← ub.dot vt
    let part ← (if d.upperDiag then b.slice 0 b.nr 1 b.nc else b.slice 1 b.nr 0 b.nc : M Mt)
    .ok (near 1e-7 uu (eye b.nr) && near 1e-7 vv (eye b.nr) && near 1e-5 ubv a && near1 tiny diag b.diag &&
      near1 tiny off part.diag)⟩,
  ⟨"tests/cholesky.rs", fun _ => cases 40 fun k => do
    let a ← hpd k
    let c ← cholesky a
    let cc ← c.dot c.t
    let t ← isTriangular c .lower
    let dirty ← choleskyDirty a
    let dl ← intoTriangular dirty .lower
    let x := draw a.nr (dim k 5) (k + 7)
    let b ← a.dot x
    let s ← solvec a b
    let i ← invc a
    let ai ← a.dot i
    .ok (near 1e-7 cc a && t && near 1e-7 c dl && near 1e-5 s x && near 1e-7 ai (eye a.nr))⟩,
  ⟨"tests/eigh.rs", fun _ => cases 40 fun k => do
    let a := symm (draw (dim k 1) (dim k 1) k)
    let check (vals : V) (vecs : Mt) : M Bool := do
      let av ← a.dot vecs
      let ev ← vecs.scaleCols vals
      .ok (near 1e-5 av ev)
    let (vals, vecs) ← eigh fuel a
    let w ← eigvalsh fuel a
    let s ← vecs.t.dot vecs
    let c0 ← check vals vecs
    let (va, ve) ← sortEig vals vecs .smallest
    let c1 ← check va ve
    let (vb, vf) ← sortEig vals vecs .largest
    let c2 ← check vb vf
    let _ ← eigh fuel (draw (dim k 1) (dim k 1) k)
    .ok (near1 1e-5 w vals && near 1e-5 s (eye a.nr) && c0 && c1 && c2 && up va.toList && up vb.toList.reverse)⟩,
  ⟨"tests/qr.rs", fun _ => cases 40 fun k => do
    let n := dim k 1
    let a := draw (n + dim k 2 % (11 - n)) n k
    let d ← qrInto a
    let (q, r) ← d.intoDecomp
    let qq ← q.t.dot q
    let qr ← q.dot r
    let t ← isTriangular r .upper
    let sq := draw n n (k + 3)
    let ds ← qrInto sq
    let inv ← (match ds.inverse with
      | .ok inv => do
        let p ← sq.dot inv
        let p' ← inv.dot sq
        .ok (near 1e-7 p (eye n) && near 1e-7 p' (eye n))
      | .error (.err .nonInvertible) => .ok true
      | .error f => .error f : M Bool)
    let g := draw (dim k 3) (dim k 4) (k + 5)
    let x := draw g.nc (dim k 5) (k + 7)
    let b ← g.dot x
    let sol ← leastSquares g b
    let gs ← g.dot sol
    .ok (near 1e-7 qq (eye n) && t && near 1e-7 qr a && inv && near 1e-7 gs b)⟩,
  ⟨"tests/qr.rs inverse_scaled_identity", fun _ => do
    let d ← qrInto ((eye 5).map (· * 1e-20))
    let i ← d.inverse
    .ok (near 1e-3 i ((eye 5).map (· * 1e20)))⟩,
  ⟨"tests/svd.rs", fun _ => cases 40 fun k => do
    let a := draw (dim k 1) (dim k 2) k
    let z := rows 0 0 []
    let rec3 (u : Option Mt) (s : V) (vt : Option Mt) : M Bool := do
      let us ← (u.getD z).dot (Arr2.fromDiag s)
      let usv ← us.dot (vt.getD z)
      .ok (near 1e-7 usv a)
    let (u, s, vt) ← svdGo fuel a true true 1e-15
    let uu ← (if a.nr > a.nc then (u.getD z).t.dot (u.getD z) else (u.getD z).dot (u.getD z).t : M Mt)
    let vv ← (vt.getD z).dot (vt.getD z).t
    let c0 ← rec3 u s vt
    let (u2, s2, vt2) ← svdGo fuel a false true 1e-15
    let (u3, s3, vt3) ← svdGo fuel a true false 1e-15
    let (u4, s4, vt4) ← svdGo fuel a false false 1e-15
    let (ua, sa, va) ← sortSvd u s vt .smallest
    let c1 ← rec3 ua sa va
    let (ub, sb, vb) ← sortSvd u s vt .largest
    let c2 ← rec3 ub sb vb
    .ok (s.toList.all (fun x => !Float.signBit x) && near 1e-7 uu (eye s.len) && near 1e-7 vv (eye s.len) && c0 &&
      u2.isNone && near1 1e-9 s2 s && near 1e-9 (vt2.getD z) (vt.getD z) && vt3.isNone && near1 1e-9 s3 s &&
      near 1e-9 (u3.getD z) (u.getD z) && u4.isNone && vt4.isNone && near1 1e-9 s4 s && c1 && c2 &&
      up sa.toList && up sb.toList.reverse)⟩,
  ⟨"tests/triangular.rs", fun _ => cases 40 fun k => do
    let n := dim k 1
    let x := draw n (dim k 2) (k + 3)
    let t (uplo : UPLO) : M Bool := do
      let a ← intoTriangular (draw n n k) uplo
      let a := Arr2.memo ⟨n, n, fun i j => if i == j && (a.get i j).abs < 1 then 1.0 else a.get i j⟩
      let b ← a.dot x
      let s ← solveTriangular a b uplo
      .ok (near 1e-4 s x)
    let p ← t .lower
    let q ← t .upper
    .ok (p && q)⟩,
  ⟨"tests/tridiagonal.rs", fun _ => cases 40 fun k => do
    let a := symm (draw (dim k 1) (dim k 1) k)
    let d ← symTridiagonal a
    let q ← d.generateQ
    let tri ← d.intoTridiagMatrix
    let band := (List.range a.nr).all fun i => (List.range a.nr).all fun j =>
      i ≤ j + 1 && j ≤ i + 1 || tri.get i j == 0
    let qt ← q.dot tri
    let qtq ← qt.dot q.t
    let qq ← q.dot q.t
    let d' ← symTridiagonal (draw (dim k 1) (dim k 1) k)
    let _ ← d'.generateQ
    let _ ← d'.intoTridiagMatrix
    .ok (band && near 1e-7 qtq a && near 1e-7 qq (eye a.nr))⟩
]

end LinfaLinalg

open LinfaLinalg in
def main : IO UInt32 := do
  let mut bad : UInt32 := 0
  for t in tests do
    let r := match t.run () with
      | .ok true => "ok"
      | .ok false => "WRONG"
      | .error f => s!"FAILED {repr f}"
    if r != "ok" then bad := bad + 1
    IO.println s!"{r}  {t.name}"
  return bad
