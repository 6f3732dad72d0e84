import Verif.Solver.Object
import Verif.Manifold.Stiefel
import Verif.Manifold.Intrinsic

/-!
# The line-search solvers on the Stiefel and Grassmann manifolds, with extrinsic and intrinsic tangent vectors

The environments of `Verif.Obj` for `Stiefel` (Euclidean metric, qf retraction; `ChooseParamsSet1`/`2`, Stiefel.cpp) and `Grassmann`, over the reals with exact arithmetic. With
`IsIntrApproach = false` a tangent vector is a matrix; with `true` it is the list of its coordinates in the frame given by the fields `_HHR`, `_tau` of the point
(Problem.cpp:61-70 converts the gradient, the retraction converts its argument).

`hhr A` are the factors of `Element::HHRDecom` (LAPACK, Element.cpp:1063-1133): an oracle, its specification is a hypothesis of the theorems. `_Q` and `_R` of
`Element::QRDecom` (Element.cpp:1135-1230) are the first `p` columns and rows. The numbers are real: there is no NaN, no overflow (`finite` is always true, `inf` is only stored as
the slope of searches that do not compute one), and no preconditioner. Fields other than `_HHR`, `_tau` are left out.
-/

namespace Verif.Obj

open Matrix Verif.Mat Verif.Stiefel Verif.Intr

/-- Real arithmetic; `INFINITY` has no counterpart and is represented by 0. -/
noncomputable def realEnv {X E : Type*} (f : X → ℝ) (grad : X → E) (metric : X → E → E → ℝ) (retr : X → E → X) (dretr : X → E → X → E → E) (transport : X → E → X → E → E)
    (smul : ℝ → E → E) (lin : ℝ → E → ℝ → E → E) : Env ℝ X E where
  lit n d := (n : ℝ) / (d : ℝ)
  lt a b := @decide (a < b) (Classical.dec _)
  le a b := @decide (a ≤ b) (Classical.dec _)
  eq a b := @decide (a = b) (Classical.dec _)
  sqrt := Real.sqrt
  abs := fun a => max a (-a)
  finite := fun _ => true
  inf := 0
  eps := 1 / 2 ^ 52
  f := f
  grad := grad
  precond := fun _ v => v
  metric := metric
  retr := retr
  dretr := dretr
  transport := transport
  smul := smul
  lin := lin

variable {n p : ℕ}

/-- `_Q` of `Element::QRDecom`: the first `p` columns. -/
def thinQ (hp : p ≤ n) (Q : Matrix (Fin n) (Fin n) ℝ) : Matrix (Fin n) (Fin p) ℝ := Q.submatrix id (Fin.castLE hp)

/-- `_R` of `Element::QRDecom`: the first `p` rows. -/
def topR (hp : p ≤ n) (R : Matrix (Fin n) (Fin p) ℝ) : Matrix (Fin p) (Fin p) ℝ := R.submatrix (Fin.castLE hp) id

/-- The factors stored in the fields `_HHR`, `_tau`. -/
abbrev Frame (n p : ℕ) := Matrix (Fin n) (Fin n) ℝ × Matrix (Fin n) (Fin p) ℝ

/-- A point with its fields `_HHR`, `_tau`. -/
abbrev Framed (n p : ℕ) := Matrix (Fin n) (Fin p) ℝ × Frame n p

/-- Stiefel.cpp:448-461, Grassmann.cpp:59-72: the qf factor of `x + η`, from the factors `hhr (x + η)`. -/
noncomputable def qfPoint (hp : p ≤ n) (h : Frame n p) : Matrix (Fin n) (Fin p) ℝ := qfRetraction (thinQ hp h.1) (topR hp h.2)

/-- `Grassmann` with extrinsic vectors; `Manifold::VectorTransport` is the projection (Manifold.cpp:181). -/
noncomputable def grassExtrEnv (hp : p ≤ n) (hhr : Matrix (Fin n) (Fin p) ℝ → Frame n p) (f : Matrix (Fin n) (Fin p) ℝ → ℝ) (G : Matrix (Fin n) (Fin p) ℝ → Matrix (Fin n) (Fin p) ℝ) :
    Env ℝ (Matrix (Fin n) (Fin p) ℝ) (Matrix (Fin n) (Fin p) ℝ) :=
  realEnv f (fun x => gProj x (G x)) (fun _ u v => frob u v) (fun x η => qfPoint hp (hhr (x + η))) (fun x η y ξ => diffQf y (topR hp (hhr (x + η)).2) ξ)
    (fun _ _ y ξ => gProj y ξ) (fun c v => c • v) (fun a v b w => a • v + b • w)

/-- `Grassmann` with intrinsic vectors: the retraction stores the factors of `x + η` at the new point (Grassmann.cpp:73-74), the vector transport leaves the coordinates alone
(`IntrProjection`, Manifold.cpp). -/
noncomputable def grassIntrEnv (hp : p ≤ n) (junk : ℕ → ℝ) (hhr : Matrix (Fin n) (Fin p) ℝ → Frame n p) (f : Matrix (Fin n) (Fin p) ℝ → ℝ)
    (G : Matrix (Fin n) (Fin p) ℝ → Matrix (Fin n) (Fin p) ℝ) : Env ℝ (Framed n p) (List ℝ) :=
  realEnv (fun x => f x.1) (fun x => grassIntr x.2.1 (gProj x.1 (G x.1))) (fun _ u v => dot u v)
    (fun x c => let h := hhr (x.1 + grassExtr junk x.2.1 c); (qfPoint hp h, h))
    (fun x _ y d => grassIntr y.2.1 (diffQf y.1 (topR hp y.2.2) (grassExtr junk x.2.1 d)))
    (fun _ _ _ ξ => ξ) (fun c v => v.map (c * ·)) (fun a v b w => List.zipWith (fun s t => a * s + b * t) v w)

/-- `Stiefel` with extrinsic vectors, Euclidean metric, qf retraction, transport by projection. -/
noncomputable def stiefelExtrEnv (hp : p ≤ n) (hhr : Matrix (Fin n) (Fin p) ℝ → Frame n p) (f : Matrix (Fin n) (Fin p) ℝ → ℝ) (G : Matrix (Fin n) (Fin p) ℝ → Matrix (Fin n) (Fin p) ℝ) :
    Env ℝ (Matrix (Fin n) (Fin p) ℝ) (Matrix (Fin n) (Fin p) ℝ) :=
  realEnv f (fun x => proj x (G x)) (fun _ u v => frob u v) (fun x η => qfPoint hp (hhr (x + η))) (fun x η y ξ => diffQf y (topR hp (hhr (x + η)).2) ξ)
    (fun _ _ y ξ => proj y ξ) (fun c v => c • v) (fun a v b w => a • v + b • w)

/-- `Stiefel` with intrinsic vectors, Euclidean metric, qf retraction, transport by parallelization. -/
noncomputable def stiefelIntrEnv (hp : p ≤ n) (junk : ℕ → ℝ) (hhr : Matrix (Fin n) (Fin p) ℝ → Frame n p) (f : Matrix (Fin n) (Fin p) ℝ → ℝ)
    (G : Matrix (Fin n) (Fin p) ℝ → Matrix (Fin n) (Fin p) ℝ) : Env ℝ (Framed n p) (List ℝ) :=
  realEnv (fun x => f x.1) (fun x => stiefelIntr x.2.1 x.2.2 (proj x.1 (G x.1))) (fun _ u v => dot u v)
    (fun x c => let h := hhr (x.1 + stiefelExtr junk x.2.1 x.2.2 c); (qfPoint hp h, h))
    (fun x _ y d => stiefelIntr y.2.1 y.2.2 (diffQf y.1 (topR hp y.2.2) (stiefelExtr junk x.2.1 x.2.2 d)))
    (fun _ _ _ ξ => ξ) (fun c v => v.map (c * ·)) (fun a v b w => List.zipWith (fun s t => a * s + b * t) v w)

end Verif.Obj
