import Verif.Elem.Layout
import Mathlib.Algebra.Star.Basic
import Mathlib.Algebra.BigOperators.Group.List.Basic

/-!
# Sparse matrices

Model of `Others/SparseBLAS/nist_spblas.h` and `nist_spblas.cpp` as used by `Others/SparseMatrix.cpp` and the products with dense matrices of `Manifolds/Element.cpp:719-770`.

`int` is modelled by the integers, `std::vector` by lists, and the numbers by a commutative ring with conjugation (`conj` of a real number is the number, nist_spblas.h:37-45). A
dense buffer is a function of the index. `none` stands for undefined behaviour (access through a null pointer or outside a vector). Blocks, cliques, printing, the triangular solves
and the one-dimensional routines are not modelled; the library uses none of them.
-/

namespace Verif.Sparse

open Verif.Elem

/-! ### Matrices -/

/-- `nnew_`, `open_`, `valid_`: exactly one is set (nist_spblas.h:213-216). -/
inductive Phase
  | fresh
  | opened
  | valid
  deriving DecidableEq, Repr

/-- `Sp_mat` and `TSp_mat<T>`, nist_spblas.h:56-120, 268-277; flags for blocks, precision and optimisation omitted. -/
structure Sp (T : Type) where
  rows : Nat
  cols : Nat
  nnz : Nat
  phase : Phase
  unitDiag : Bool
  upTri : Bool
  loTri : Bool
  upSym : Bool
  loSym : Bool
  upHer : Bool
  loHer : Bool
  oneBase : Bool
  S : List (List (T × Nat))
  diag : List T

variable {T : Type}

def Sp.tri (A : Sp T) : Bool := A.upTri || A.loTri
def Sp.sym (A : Sp T) : Bool := A.upSym || A.loSym
def Sp.her (A : Sp T) : Bool := A.loHer || A.upHer

/-- The constructor, nist_spblas.h:121-154, 618. -/
def Sp.mk0 (T : Type) (M N : Nat) : Sp T :=
  ⟨M, N, 0, .fresh, false, false, false, false, false, false, false, false, List.replicate M [], []⟩

section insert
variable [CommRing T] [DecidableEq T]

/-- The transition from `new` to `open` at the first insertion, nist_spblas.h:660-672: the diagonal is given its size for triangular and symmetric matrices. -/
def Sp.open (A : Sp T) : Sp T :=
  if A.phase = .fresh then
    { A with phase := .opened, diag := if A.tri || A.sym then List.replicate A.rows (if A.unitDiag then 1 else 0) else A.diag }
  else A

/-- `insert_entry`, nist_spblas.h:646-717: the return value and the new matrix. The range tests return 1 without a change. -/
def Sp.insertEntry (A : Sp T) (val : T) (i j : Int) : Option (Int × Sp T) :=
  let i := if A.oneBase then i - 1 else i
  let j := if A.oneBase then j - 1 else j
  if ¬ 0 ≤ i then some (1, A)
  else if ¬ i < A.rows then some (1, A)
  else if ¬ 0 ≤ j then some (1, A)
  else if ¬ j < A.cols then some (1, A)
  else
    let A := A.open
    if A.phase = .opened then
      if i = j ∧ (A.tri || A.sym || A.her) = true then
        if A.unitDiag then
          if val ≠ 1 then some (0, A) else some (0, { A with nnz := A.nnz + 1 })
        else if i.toNat < A.diag.length then
          some (0, { A with diag := A.diag.modify i.toNat (· + val), nnz := A.nnz + 1 })
        else none
      else some (0, { A with S := A.S.modify i.toNat (· ++ [(val, j.toNat)]), nnz := A.nnz + 1 })
    else some (0, A)

/-- `insert_entries`, nist_spblas.h:719-727; the arrays `Val`, `I`, `J` as a list of triplets; return values are ignored. -/
def Sp.insertEntries (A : Sp T) : List (T × Int × Int) → Option (Sp T)
  | [] => some A
  | (v, i, j) :: ts => match A.insertEntry v i j with
    | none => none
    | some (_, A) => A.insertEntries ts

/-- `end_construction`, nist_spblas.h:249-258. -/
def Sp.endConstruction (A : Sp T) : Int × Sp T :=
  if A.phase = .opened ∨ A.phase = .fresh then (0, { A with phase := .valid }) else (1, A)

end insert

/-! ### Products

Every loop adds numbers that do not depend on the destination to entries of the destination `y`; it is the sequence of these additions. -/

section product
variable [CommRing T] [StarRing T]

/-- `y[k] += v` for every `(k, v)` in order. -/
def addAll (y : Nat → T) : List (Nat × T) → Nat → T
  | [] => y
  | (k, v) :: l => addAll (Function.update y k (y k + v)) l

/-- `sp_dot_product`, nist_spblas.h:281-302 (the two branches differ in the stride only). -/
def spDot (r : List (T × Nat)) (x : Nat → T) (incx : Nat) : T := r.foldl (fun s p => s + p.1 * x (p.2 * incx)) 0

/-- `sp_conj_dot_product`, nist_spblas.h:304-325. -/
def spConjDot (r : List (T × Nat)) (x : Nat → T) (incx : Nat) : T := r.foldl (fun s p => s + star p.1 * x (p.2 * incx)) 0

/-- `sp_axpy`, nist_spblas.h:327-340. -/
def spAxpy (alpha : T) (r : List (T × Nat)) (incy : Nat) : List (Nat × T) := r.map fun p => (incy * p.2, alpha * p.1)

/-- `sp_conj_axpy`, nist_spblas.h:342-354. -/
def spConjAxpy (alpha : T) (r : List (T × Nat)) (incy : Nat) : List (Nat × T) := r.map fun p => (incy * p.2, alpha * star p.1)

/-- `mult_diag`, nist_spblas.h:356-365. -/
def Sp.multDiag (A : Sp T) (alpha : T) (x : Nat → T) (incx incy : Nat) : List (Nat × T) :=
  forN A.diag.length fun i => [(i * incy, alpha * A.diag.getD i 0 * x (i * incx))]

/-- `mult_conj_diag`, nist_spblas.h:367-377. -/
def Sp.multConjDiag (A : Sp T) (alpha : T) (x : Nat → T) (incx incy : Nat) : List (Nat × T) :=
  forN A.diag.length fun i => [(i * incy, alpha * star (A.diag.getD i 0) * x (i * incx))]

/-- `nondiag_mult_vec`, nist_spblas.h:379-393. -/
def Sp.nondiagMult (A : Sp T) (alpha : T) (x : Nat → T) (incx incy : Nat) : List (Nat × T) :=
  forN A.rows fun i => [(i * incy, alpha * spDot (A.S.getD i []) x incx)]

/-- `nondiag_mult_vec_conj`, nist_spblas.h:395-410. -/
def Sp.nondiagMultConj (A : Sp T) (alpha : T) (x : Nat → T) (incx incy : Nat) : List (Nat × T) :=
  forN A.rows fun i => [(i * incy, alpha * spConjDot (A.S.getD i []) x incx)]

/-- `nondiag_mult_vec_transpose`, nist_spblas.h:412-421. -/
def Sp.nondiagMultT (A : Sp T) (alpha : T) (x : Nat → T) (incx incy : Nat) : List (Nat × T) :=
  forN A.rows fun i => spAxpy (alpha * x (i * incx)) (A.S.getD i []) incy

/-- `nondiag_mult_vec_conj_transpose`, nist_spblas.h:423-432. -/
def Sp.nondiagMultCT (A : Sp T) (alpha : T) (x : Nat → T) (incx incy : Nat) : List (Nat × T) :=
  forN A.rows fun i => spConjAxpy (alpha * x (i * incx)) (A.S.getD i []) incy

/-- `mult_vec`, nist_spblas.h:434-445. -/
def Sp.multVec (A : Sp T) (alpha : T) (x : Nat → T) (incx incy : Nat) : List (Nat × T) :=
  A.nondiagMult alpha x incx incy ++ (if A.tri || A.sym then A.multDiag alpha x incx incy else []) ++ (if A.sym then A.nondiagMultT alpha x incx incy else [])

/-- `mult_vec_transpose`, nist_spblas.h:447-459. -/
def Sp.multVecT (A : Sp T) (alpha : T) (x : Nat → T) (incx incy : Nat) : List (Nat × T) :=
  A.nondiagMultT alpha x incx incy ++ (if A.tri || A.sym then A.multDiag alpha x incx incy else []) ++ (if A.sym then A.nondiagMult alpha x incx incy else [])

/-- `mult_vec_conj_transpose`, nist_spblas.h:461-473. -/
def Sp.multVecCT (A : Sp T) (alpha : T) (x : Nat → T) (incx incy : Nat) : List (Nat × T) :=
  A.nondiagMultCT alpha x incx incy ++ (if A.tri || A.sym then A.multConjDiag alpha x incx incy else []) ++ (if A.sym then A.nondiagMultConj alpha x incx incy else [])

/-- `blas_trans_type`. -/
inductive Trans
  | noTrans
  | trans
  | conjTrans
  deriving DecidableEq, Repr

/-- `usmv`, nist_spblas.h:763-784, for a destination starting at `yo`; nothing happens when the matrix is not valid. -/
def Sp.usmv (A : Sp T) (tr : Trans) (alpha : T) (x : Nat → T) (incx incy yo : Nat) : List (Nat × T) :=
  if A.phase = .valid then
    (match tr with
      | .noTrans => A.multVec alpha x incx incy
      | .conjTrans => A.multVecCT alpha x incx incy
      | .trans => A.multVecT alpha x incx incy).map fun (p : Nat × T) => (yo + p.1, p.2)
  else []

/-- `usmm` with column-major order, nist_spblas.h:786-810 and nist_spblas.cpp:530-538. -/
def Sp.usmm (A : Sp T) (tr : Trans) (nrhs : Nat) (alpha : T) (b : Nat → T) (ldb : Nat) (C : Nat → T) (ldC : Nat) : Nat → T :=
  addAll C (forN nrhs fun i => A.usmv tr alpha (fun k => b (i * ldb + k)) 1 1 (i * ldC))

/-- `SparseMatrix` applied to a dense matrix, Element.cpp:719-743: `none` when an assertion fails. The entries of a complex matrix are treated as units. -/
def sparseTimes (A : Sp T) (X : Mat T) : Option (Mat T) :=
  if A.cols = X.s0 then some ⟨A.rows, X.s1, A.usmm .noTrans X.s1 1 X.get X.s0 (fun _ => 0) A.rows⟩ else none

/-- `GetTranspose`, Element.cpp:2262-2289, on entries: in the complex case the conjugate transpose. For pairs of real numbers see `Verif.Elem.transposeC`. -/
def ctr (junk : Nat → T) (x : Mat T) : Mat T :=
  ⟨x.s1, x.s0, writeAll junk (forN x.s1 fun i => forN x.s0 fun j => [(i + j * x.s1, star (x.get (j + i * x.s0)))])⟩

/-- A dense matrix times `SparseMatrix`, Element.cpp:745-770. -/
def timesSparse (junk : Nat → T) (cplx : Bool) (X : Mat T) (A : Sp T) : Option (Mat T) :=
  if X.s1 = A.rows then
    let L := if cplx then ctr junk X else transpose junk X
    let R : Mat T := ⟨A.cols, L.s1, A.usmm (if cplx then .conjTrans else .trans) L.s1 1 L.get L.s0 (fun _ => 0) A.cols⟩
    some (if cplx then ctr junk R else transpose junk R)
  else none

end product

/-! ### The table of matrices -/

/-- `Table` and `Table_active_matrices`, nist_spblas.h:889-890. Each pointer in the table belongs to one slot, so a slot holds the matrix itself. -/
structure Table (α : Type) where
  slots : List (Option α)
  active : Nat

/-- The first free slot from position `k` on (the loop of `Table_insert`, nist_spblas.cpp:64-72). -/
def firstFree {α : Type} : List (Option α) → Nat → Option Nat
  | [], _ => none
  | none :: _, k => some k
  | some _ :: l, k => firstFree l (k + 1)

/-- `Table_insert`, nist_spblas.cpp:53-76. -/
def Table.insert {α : Type} (t : Table α) (a : α) : Int × Table α :=
  if t.active ≤ t.slots.length then (t.slots.length, ⟨t.slots ++ [some a], t.active + 1⟩)
  else match firstFree t.slots 0 with
    | some i => (i, ⟨t.slots.set i (some a), t.active + 1⟩)
    | none => (-1, t)

/-- `Table_remove`, nist_spblas.cpp:82-92; the unsigned counter wraps. -/
def Table.remove {α : Type} (t : Table α) (i : Nat) : Int × Table α :=
  match t.slots[i]? with
  | some (some _) => (0, ⟨t.slots.set i none, if t.active = 0 then 4294967295 else t.active - 1⟩)
  | _ => (-1, t)

/-- `Table[A]->...` and `GetSpMFromTable`, nist_spblas.cpp:94-102: `none` for a missing slot or a null pointer. -/
def Table.lookup {α : Type} (t : Table α) (h : Int) : Option α :=
  if 0 ≤ h then (t.slots[h.toNat]?).getD none else none

/-- Replaces the matrix behind a handle (methods called through `Table[A]`). -/
def Table.store {α : Type} (t : Table α) (h : Int) (a : α) : Table α := ⟨t.slots.set h.toNat (some a), t.active⟩

section
variable [CommRing T] [DecidableEq T]

/-- The constructor of `SparseMatrix`, SparseMatrix.cpp:7-25 (begin, insert, end): the handle and the new table; `none` for undefined behaviour. -/
def newSparse (t : Table (Sp T)) (m n : Nat) (ts : List (T × Int × Int)) : Option (Int × Table (Sp T)) :=
  let (h, t) := t.insert (Sp.mk0 T m n)
  match t.lookup h with
  | none => none
  | some A => match A.insertEntries ts with
    | none => none
    | some A =>
      let t := t.store h A
      match t.lookup h with
      | none => none
      | some A => some (h, t.store h A.endConstruction.2)

end

/-- The destructor of `SparseMatrix`, SparseMatrix.cpp:48-51: `BLAS_usds`, nist_spblas.cpp:362-370. The matrix is accessed through the pointer in the table before it is deleted. -/
def destroySparse {α : Type} (t : Table α) (h : Int) : Option (Table α) :=
  match t.lookup h with
  | none => none
  | some _ => some (t.remove h.toNat).2

end Verif.Sparse
