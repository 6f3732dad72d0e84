import Verif.Manifold.SymFRIntr

/-!
# Intrinsic coordinates of the symmetric fixed-rank manifold for the metric SFRANKQQEUC, SymFixedRankQ.cpp:593-755

The conversion to coordinates stores a triangular matrix in the field "BL" of the point; the conversion back reads that field. Factorisations of LAPACK are parameters.
-/

namespace Verif.SymFR

open Matrix Verif.Elem Verif.Intr Verif.Q2F

/-- `for (i = 0; i < p; i++) for (j = i; j < p; j++)`. -/
def tri (p : Nat) : List (Nat × Nat) := (List.range p).flatMap fun i => (List.range (p - i)).map fun d => (i, i + d)

/-- `dim = p * (p + 1) / 2` of SymFixedRankQ.cpp:668, 699 as the number of rounds of the loops (`C37_sym_qeuc_dim` proves that it is this number). -/
def dimT (p : Nat) : Nat := (tri p).length

/-- The round with number `k` of the double loop. -/
def triAt (p : Nat) (k : Fin (dimT p)) : Nat × Nat := (tri p)[k.1]'k.2

/-- The column of `B` before `trtrs_`, SymFixedRankQ.cpp:650-658. -/
def symUnit (p : Nat) (q : Nat × Nat) : Matrix (Fin p) (Fin p) ℝ := fun a b => if (a.1 = q.2 ∧ b.1 = q.1) ∨ (a.1 = q.1 ∧ b.1 = q.2) then 1 else 0

/-- The matrix `B`: column `k` is `L⁻¹ (E_ij + E_ji)` as a buffer, SymFixedRankQ.cpp:650-662. -/
noncomputable def basisB {p : Nat} (L : Matrix (Fin p) (Fin p) ℝ) : Matrix (Fin (p * p)) (Fin (dimT p)) ℝ := fun a k => flat (L⁻¹ * symUnit p (triAt p k)) a.1

/-- `GetSubmatrix(0, p - 1, 0, p - 1)` of an `n × p` matrix; entries outside (`n < p`) read as `0` here. -/
def topSq {n p : Nat} (A : Matrix (Fin n) (Fin p) ℝ) : Matrix (Fin p) (Fin p) ℝ := fun i j => if h : i.1 < n then A ⟨i.1, h⟩ j else 0

/-- The signed `Qᵀ η`, SymFixedRankQ.cpp:600-608. -/
noncomputable def tmpQ {n p : Nat} (h : Hou1 n p) (η : Matrix (Fin n) (Fin p) ℝ) : Matrix (Fin n) (Fin p) ℝ := scaleRows (rowSigns h.R) (h.Qᵀ * η)

/-- The coefficients in the basis `B`, SymFixedRankQ.cpp:625-636. -/
noncomputable def coefQ {n p : Nat} (h : Hou1 n p) (η : Matrix (Fin n) (Fin p) ℝ) : Fin (dimT p) → ℝ := fun k =>
  flat (lowL h.R * topSq (tmpQ h η)) ((triAt p k).2 + (triAt p k).1 * p)

/-- `ObtainIntrQEUC`, SymFixedRankQ.cpp:593-692; `RB` is the field "_HHR" of `B`. The result is the coordinates and the matrix stored in the field "BL". -/
noncomputable def intrQ {n p : Nat} (h : Hou1 n p) (RB : Matrix (Fin (p * p)) (Fin (dimT p)) ℝ) (η : Matrix (Fin n) (Fin p) ℝ) : List ℝ × Matrix (Fin (dimT p)) (Fin (dimT p)) ℝ :=
  let BL := lowL RB
  (List.ofFn (BLᵀ *ᵥ coefQ h η) ++ (rest n p).map (fun q => flat (tmpQ h η) (q.2 + q.1 * n)), BL)

/-- The writes of `ObtainExtrQEUC`, SymFixedRankQ.cpp:707-724; `t` is the buffer `tmpptr`, `c` the buffer of the coordinates. -/
def writesQ (n p : Nat) (t c : Nat → ℝ) : List (Nat × ℝ) :=
  (tri p).zipIdx.flatMap (fun w => [(w.1.2 + w.1.1 * n, t w.2), (w.1.1 + w.1.2 * n, t w.2)]) ++
    (rest n p).zipIdx.map (fun w => (w.1.2 + w.1.1 * n, c ((tri p).length + w.2)))

/-- `SubmatrixAssignment(0, p - 1, 0, p - 1, T)`. -/
def setTop {n p : Nat} (A : Matrix (Fin n) (Fin p) ℝ) (T : Matrix (Fin p) (Fin p) ℝ) : Matrix (Fin n) (Fin p) ℝ := fun i j => if h : i.1 < p then T ⟨i.1, h⟩ j else A i j

/-- A vector as a buffer. -/
def vbuf {d : Nat} (v : Fin d → ℝ) (k : Nat) : ℝ := if h : k < d then v ⟨k, h⟩ else 0

/-- `ObtainExtrQEUC`, SymFixedRankQ.cpp:694-755; `field` is the field "BL" of the point: without it `x.Field("BL")` has nothing to return (`none`). -/
noncomputable def extrQ {n p : Nat} (junk : Nat → ℝ) (h : Hou1 n p) (field : Option (Matrix (Fin (dimT p)) (Fin (dimT p)) ℝ)) (c : List ℝ) : Option (Matrix (Fin n) (Fin p) ℝ) :=
  field.map fun BL =>
    let t := BLᵀ⁻¹ *ᵥ fun k => buf c k.1
    let A := unflat n p (writeAll junk (writesQ n p (vbuf t) (buf c)))
    let A := setTop A ((lowL h.R)⁻¹ * topSq A)
    h.Q * scaleRows (rowSigns h.R) A

end Verif.SymFR
