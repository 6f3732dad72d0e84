import Mathlib.Analysis.RCLike.Basic
import Mathlib.Data.Matrix.Mul
import Mathlib.LinearAlgebra.Matrix.ConjTranspose
import Verif.Elem.Dense

/-!
# Decompositions attached to an element

Model of `Element::HHRDecom`, `QRDecom`, `HHRMtp`, `SVDDecom` (Manifolds/Element.cpp:1063-1339), which call LAPACK, rearrange its output and keep it in fields of the element.

Buffers are functions from flat indices (column-major). Entries are exact real or complex numbers (`𝕜` is `ℝ` or `ℂ`; a complex entry is a pair of stored numbers, see
`Verif.Dense.cx`); the branches of the code for real and complex elements do the same except where stated. New memory has arbitrary contents. LAPACK routines are parameters, their
documentation is stated as a contract (`IsQR`, `IsOrg`, `IsSVD`). `geqp3` is called with `jpvt[i] = i + 1`, i.e. all columns are fixed and no column is exchanged (1078, 1111).
-/

open Matrix Verif.Elem Verif.Dense

namespace Verif.Decomp

variable {𝕜 : Type} [RCLike 𝕜]

/-- The matrix stored in a buffer with leading dimension `ld`. -/
def view (m n ld : Nat) (a : Nat → 𝕜) : Matrix (Fin m) (Fin n) 𝕜 := of fun r c => a (r + c * ld)

/-- The fields `_HHR` and `_tau`. -/
structure House (𝕜 : Type) where
  hhr : Nat → 𝕜
  tau : Nat → 𝕜

/-! ## The documentation of LAPACK -/

/-- The vector of the reflector `i`: zeros, a one, and the entries below the diagonal of column `i` (LAPACK, `geqp3`, further details). -/
def hvec (m i : Nat) (a : Nat → 𝕜) : Fin m → 𝕜 := fun r => if r.1 < i then 0 else if r.1 = i then 1 else a (r + i * m)

/-- `H_i = I - tau v v^H`. -/
def reflector (m : Nat) (F : House 𝕜) (i : Nat) : Matrix (Fin m) (Fin m) 𝕜 := 1 - F.tau i • vecMulVec (hvec m i F.hhr) (star (hvec m i F.hhr))

/-- `Q = H_0 H_1 ... H_{k-1}`. -/
def fullQ (m k : Nat) (F : House 𝕜) : Matrix (Fin m) (Fin m) 𝕜 := ((List.range k).map (reflector m F)).prod

/-- The upper trapezoid of a buffer. -/
def upper (m n : Nat) (a : Nat → 𝕜) : Matrix (Fin m) (Fin n) 𝕜 := of fun r c => if r.1 ≤ c.1 then a (r + c * m) else 0

/-- What `geqp3` with fixed columns returns for the `m × n` matrix `A`. -/
structure IsQR (m n : Nat) (A : Nat → 𝕜) (F : House 𝕜) : Prop where
  unitary : ∀ i < min m n, (reflector m F i)ᴴ * reflector m F i = 1
  factor : fullQ m (min m n) F * upper m n F.hhr = view m n m A

/-- What `orgqr`/`ungqr` returns: the first `n` columns of the product of the first `k` reflectors. -/
def IsOrg (m n k : Nat) (F : House 𝕜) (out : Nat → 𝕜) : Prop := ∀ (r : Fin m) (c : Fin m), c.1 < n → out (r + c * m) = fullQ m k F r c

/-- What `gesvd` with `"S"`, `"S"` returns: thin factors with orthonormal columns (rows) and nonnegative decreasing values. -/
structure IsSVD (m n : Nat) (A : Nat → 𝕜) (U : Nat → 𝕜) (s : Nat → ℝ) (Vt : Nat → 𝕜) : Prop where
  left : (view m (min m n) m U)ᴴ * view m (min m n) m U = 1
  right : view (min m n) n (min m n) Vt * (view (min m n) n (min m n) Vt)ᴴ = 1
  nonneg : ∀ i < min m n, 0 ≤ s i
  factor : view m (min m n) m U * diagonal (fun i : Fin (min m n) => (s i : 𝕜)) * view (min m n) n (min m n) Vt = view m n m A

/-- The arguments `"L"`, `"R"`. -/
inductive Side | L | R
  deriving DecidableEq

/-- The arguments `"N"`, `"T"`, `"C"`. -/
inductive Trans | N | T | C
  deriving DecidableEq

/-- `ormqr`/`unmqr`: `C` is replaced by `Q C`, `Q^H C`, `C Q` or `C Q^H`, where `Q` is the product of `k` reflectors. `ormqr` accepts `"N"`, `"T"`, `unmqr` accepts `"N"`, `"C"`; for another argument
they set `info` and leave `C` as it is. -/
def ormqr (cplx : Bool) (s : Side) (t : Trans) (m n k : Nat) (F : House 𝕜) (C : Matrix (Fin m) (Fin n) 𝕜) : Matrix (Fin m) (Fin n) 𝕜 :=
  if (cplx && t == .T) || (!cplx && t == .C) then C
  else match s, t with
    | .L, .N => fullQ m k F * C
    | .L, _ => (fullQ m k F)ᴴ * C
    | .R, .N => C * fullQ n k F
    | .R, _ => C * (fullQ n k F)ᴴ

/-! ## The code -/

/-- An element with the fields these functions use. -/
structure Elt (𝕜 : Type) where
  m : Nat
  n : Nat
  get : Nat → 𝕜
  house : Option (House 𝕜)
  qr : Option ((Nat → 𝕜) × (Nat → 𝕜))
  svd : Option ((Nat → 𝕜) × (Nat → 𝕜) × (Nat → 𝕜))

/-- The LAPACK routines. `gesvd` returns the array of real singular values as it is stored. -/
structure Lapack (𝕜 : Type) where
  geqp3 : Nat → Nat → (Nat → 𝕜) → House 𝕜
  orgqr : Nat → Nat → Nat → (Nat → 𝕜) → (Nat → 𝕜) → (Nat → 𝕜)
  gesvd : Nat → Nat → (Nat → 𝕜) → (Nat → 𝕜) × (Nat → ℝ) × (Nat → 𝕜)

/-- `HHRDecom`, lines 1063-1133: nothing if both fields exist (they are always written together). `jpvt` stays the identity, no message is printed. -/
def hhrDecom (L : Lapack 𝕜) (x : Elt 𝕜) : Elt 𝕜 :=
  match x.house with
  | some _ => x
  | none => { x with house := some (L.geqp3 x.m x.n x.get) }

/-- The copy of the first `m * minmn` entries of `_HHR` to `Q`, lines 1150-1151 (1196-1197); `Q` is `m × minmn`. -/
def copyQ (m k : Nat) (junk hhr : Nat → 𝕜) : Nat → 𝕜 := writeAll junk (forN (m * k) fun i => [(i, hhr i)])

/-- The loops writing `R`, lines 1154-1163 (1200-1215). -/
def copyR (m n k : Nat) (junk hhr : Nat → 𝕜) : Nat → 𝕜 :=
  writeAll junk (forN n fun i => forN k fun j => [(j + i * k, if j ≤ i then hhr (j + i * m) else 0)])

/-- `QRDecom`, lines 1135-1223. -/
def qrDecom (L : Lapack 𝕜) (junkQ junkR : Nat → 𝕜) (x : Elt 𝕜) : Elt 𝕜 :=
  match x.qr with
  | some _ => x
  | none =>
    let x := hhrDecom L x
    match x.house with
    | none => x
    | some F =>
      let k := min x.m x.n
      { x with qr := some (L.orgqr x.m k k (copyQ x.m k junkQ F.hhr) F.tau, copyR x.m x.n k junkR F.hhr) }

/-- `HHRMtp`, lines 1225-1269: `C` is `m × n`, the fields belong to an `r × c` element; the leading dimension handed over is `r`, so that it must be the order of `Q`. -/
def hhrMtp (cplx : Bool) (r c : Nat) (F : House 𝕜) (s : Side) (t : Trans) (m n : Nat) (C : Matrix (Fin m) (Fin n) 𝕜) : Option (Matrix (Fin m) (Fin n) 𝕜) :=
  if (s = .L ∧ m = r) ∨ (s = .R ∧ n = r) then some (ormqr cplx s t m n (min r c) F C) else none

/-- `_S` as it is read afterwards: real elements keep the array; for complex elements the loop of lines 1329-1333 turns the array of real numbers into pairs in place, from the last to the
first (the loop `expand`, which also occurs in lines 1048-1052). -/
noncomputable def storedS (k : Nat) (s : Nat → ℝ) (cplx : Bool) : Nat → 𝕜 :=
  if cplx then fun i => (expand k s (2 * i) : 𝕜) + RCLike.I * (expand k s (2 * i + 1) : 𝕜) else fun i => (s i : 𝕜)

/-- `SVDDecom`, lines 1271-1338. -/
noncomputable def svdDecom (L : Lapack 𝕜) (cplx : Bool) (x : Elt 𝕜) : Elt 𝕜 :=
  match x.svd with
  | some _ => x
  | none =>
    let r := L.gesvd x.m x.n x.get
    { x with svd := some (r.1, storedS (min x.m x.n) r.2.1 cplx, r.2.2) }

/-- What a user does with an element. `write` stands for every function that obtains write access: it removes the fields (Element.cpp:2651-2690, `Verif.Elem.Fields`). -/
inductive Use (𝕜 : Type)
  | hhr
  | qr (junkQ junkR : Nat → 𝕜)
  | svd
  | write (a : Nat → 𝕜)

noncomputable def Elt.use (L : Lapack 𝕜) (cplx : Bool) (x : Elt 𝕜) : Use 𝕜 → Elt 𝕜
  | .hhr => hhrDecom L x
  | .qr jq jr => qrDecom L jq jr x
  | .svd => svdDecom L cplx x
  | .write a => { x with get := a, house := none, qr := none, svd := none }

/-- A new element without fields. -/
def Elt.new (m n : Nat) (a : Nat → 𝕜) : Elt 𝕜 := ⟨m, n, a, none, none, none⟩

end Verif.Decomp
