import Verif.Elem.Array
import Mathlib.Analysis.Real.Sqrt

/-!
# Products of manifolds, Manifolds/MultiManifolds.cpp

A product has `nt` types of components; type `i` is the manifold `M i`, repeated `ks i` times. Elements of the product are functions of the component number, see
`Verif.Elem.Product` for the storage. The component manifolds are arbitrary: their virtual functions are parameters, which may depend on the flag `IsIntrApproach` of the component.
Fields attached to elements are not modelled, except in `beta`.
-/

namespace Verif.Multi

open Verif.Elem

/-- The virtual functions of a component manifold; the `Bool` is its flag `IsIntrApproach`. -/
structure Comp (P V : Type) where
  extrDim : Nat
  intrDim : Nat
  metric : Bool → P → V → V → ℝ
  proj : Bool → P → V → V
  extrProj : P → V → V
  retr : Bool → P → V → P
  invRetr : Bool → P → P → V
  coTan : Bool → P → V → P → V → V
  diffRetr : Bool → P → V → P → V → Bool → V
  dist : P → P → ℝ
  tran : Bool → P → V → P → V → V
  invTran : Bool → P → V → P → V → V
  toIntr : P → V → V
  toExtr : P → V → V
  flat : Bool → P → V → V
  grad : Bool → P → V → V
  hess : Bool → P → V → V → V

/-- `powsinterval`, MultiManifolds.cpp:13-18. -/
def pows (ks : Nat → Nat) : Nat → Nat
  | 0 => 0
  | i + 1 => pows ks i + ks i

/-- `for (i = 0; i < numoftypes; i++) for (j = powsinterval[i]; j < powsinterval[i + 1]; j++)`: the pairs `(i, j)` in loop order. -/
def loop (pw : Nat → Nat) (nt : Nat) : List (Nat × Nat) := (List.range nt).flatMap fun i => (List.range' (pw i) (pw (i + 1) - pw i)).map fun j => (i, j)

/-- A product: the flag of the product, the types, the flags of the types and the intervals. -/
structure ProdMan (P V : Type) where
  nt : Nat
  M : Nat → Comp P V
  pw : Nat → Nat
  intr : Bool
  flag : Nat → Bool

variable {P V : Type}

/-- The first constructor, MultiManifolds.cpp:6-57. -/
def mk (nt : Nat) (M : Nat → Comp P V) (flag : Nat → Bool) (ks : Nat → Nat) : ProdMan P V := ⟨nt, M, pows ks, true, flag⟩

/-- The second constructor, MultiManifolds.cpp:60-107: the intervals are given, except the first. -/
def mk' (nt : Nat) (M : Nat → Comp P V) (flag : Nat → Bool) (inpow : Nat → Nat) : ProdMan P V := ⟨nt, M, fun i => if i = 0 then 0 else inpow i, true, flag⟩

/-- `ExtrinsicDim`, MultiManifolds.cpp:25-27, 76. -/
def extrDim (X : ProdMan P V) : Nat := ((List.range X.nt).map fun i => (X.pw (i + 1) - X.pw i) * (X.M i).extrDim).sum

/-- `IntrinsicDim`, MultiManifolds.cpp:28, 77. -/
def intrDim (X : ProdMan P V) : Nat := ((List.range X.nt).map fun i => (X.pw (i + 1) - X.pw i) * (X.M i).intrDim).sum

/-- `numoftotalmani`, MultiManifolds.cpp:29. -/
def total (X : ProdMan P V) : Nat := ((List.range X.nt).map fun i => X.pw (i + 1) - X.pw i).sum

/-- `numoftotalmani` of the second constructor, MultiManifolds.cpp:62. -/
def total' (nt : Nat) (inpow : Nat → Nat) : Nat := inpow nt

/-- The loops that write the component `j` of the result with a function of the type and the number. -/
def comps {W : Type} (X : ProdMan P V) (old : Nat → W) (f : Nat → Nat → W) : Nat → W := writeAll old ((loop X.pw X.nt).map fun q => (q.2, f q.1 q.2))

/-- `Metric`, MultiManifolds.cpp:129-140. -/
noncomputable def metric (X : ProdMan P V) (x : Nat → P) (η ξ : Nat → V) : ℝ :=
  (loop X.pw X.nt).foldl (fun s q => s + (X.M q.1).metric (X.flag q.1) (x q.2) (η q.2) (ξ q.2)) 0

/-- `Projection`, MultiManifolds.cpp:162-177; `old` is what the memory of the result holds. -/
def proj (X : ProdMan P V) (x : Nat → P) (η old : Nat → V) : Nat → V := comps X old fun i j => (X.M i).proj (X.flag i) (x j) (η j)

/-- `ExtrProjection`, MultiManifolds.cpp:179-194. -/
def extrProj (X : ProdMan P V) (x : Nat → P) (η old : Nat → V) : Nat → V := comps X old fun i j => (X.M i).extrProj (x j) (η j)

/-- `Retraction`, MultiManifolds.cpp:196-223: the new point and the product with the flags of the components as they are left. -/
def retr (X : ProdMan P V) (x : Nat → P) (η : Nat → V) (old : Nat → P) : (Nat → P) × ProdMan P V :=
  if X.intr then (comps X old fun i j => (X.M i).retr (X.flag i) (x j) (η j), X)
  else (loop X.pw X.nt).foldl (fun s q => (fun k => if k = q.2 then (X.M q.1).retr false (x q.2) (η q.2) else s.1 k,
    { s.2 with flag := fun k => if k = q.1 then true else s.2.flag k })) (old, X)

/-- `InvRetraction`, MultiManifolds.cpp:225-251. -/
def invRetr (X : ProdMan P V) (x y : Nat → P) (old : Nat → V) : (Nat → V) × ProdMan P V :=
  if X.intr then (comps X old fun i j => (X.M i).invRetr (X.flag i) (x j) (y j), X)
  else (loop X.pw X.nt).foldl (fun s q => (fun k => if k = q.2 then (X.M q.1).invRetr false (x q.2) (y q.2) else s.1 k,
    { s.2 with flag := fun k => if k = q.1 then true else s.2.flag k })) (old, X)

/-- `coTangentVector`, MultiManifolds.cpp:253-267. -/
def coTan (X : ProdMan P V) (x : Nat → P) (η : Nat → V) (y : Nat → P) (ξ old : Nat → V) : Nat → V :=
  comps X old fun i j => (X.M i).coTan (X.flag i) (x j) (η j) (y j) (ξ j)

/-- `DiffRetraction` without the computation of `beta`, MultiManifolds.cpp:303-315. -/
def diffRetr (X : ProdMan P V) (x : Nat → P) (η : Nat → V) (y : Nat → P) (ξ : Nat → V) (same : Bool) (old : Nat → V) : Nat → V :=
  comps X old fun i j => (X.M i).diffRetr (X.flag i) (x j) (η j) (y j) (ξ j) same

/-- `betaptr[0]` of `DiffRetraction`, MultiManifolds.cpp:317-325, with `d` the result. -/
noncomputable def beta (X : ProdMan P V) (x : Nat → P) (η ξ d : Nat → V) : ℝ :=
  √(metric X x η η / metric X x d d) / √(metric X x η η / metric X x ξ ξ)

/-- The factor of the field "betaTReta", MultiManifolds.cpp:320, 329: `EtatoXi` times `betaptr[0]`. -/
noncomputable def betaScale (X : ProdMan P V) (x : Nat → P) (η ξ d : Nat → V) : ℝ := beta X x η ξ d * √(metric X x η η / metric X x ξ ξ)

/-- The same numbers in the single manifolds, e.g. Stiefel.cpp:550-553, Sphere.cpp:92-95, SPDManifold.cpp:306-309, FixedRankQ2F.cpp:483-486 (where `y` is used): `mx`, `my` are the
metrics at `x` and at `y`. -/
noncomputable def beta1 (mx my : V → V → ℝ) (η ξ d : V) : ℝ := √(mx η η / my d d) / √(mx η η / mx ξ ξ)

/-- The factor of the field "betaTReta" of the single manifolds. -/
noncomputable def betaScale1 (mx my : V → V → ℝ) (η ξ d : V) : ℝ := beta1 mx my η ξ d * √(mx η η / mx ξ ξ)

/-- `Beta` with reflections, MultiManifolds.cpp:269-301: `fη` is the first number of the field "beta" of the vector, `fx j`, the other two numbers of that field of component `j` of
`x`. -/
noncomputable def betaOf (X : ProdMan P V) (fη : Option ℝ) (fx : Nat → Option (ℝ × ℝ)) (x : Nat → P) (η : Nat → V) : ℝ :=
  match fη with
  | some b => b
  | none =>
    let s := (loop X.pw X.nt).foldl (fun (s : ℝ × ℝ) (q : Nat × Nat) =>
      match fx q.2 with
      | some b => (s.1 + b.1, s.2 + b.2)
      | none => let tmp := (X.M q.1).metric (X.flag q.1) (x q.2) (η q.2) (η q.2); (s.1 + tmp, s.2 + tmp)) (0, 0)
    √(s.1 / s.2)

/-- `Dist`, MultiManifolds.cpp:335-347. -/
noncomputable def dist (X : ProdMan P V) (x y : Nat → P) : ℝ :=
  √((loop X.pw X.nt).foldl (fun s q => s + (X.M q.1).dist (x q.2) (y q.2) * (X.M q.1).dist (x q.2) (y q.2)) 0)

/-- `VectorTransport` without reflections, MultiManifolds.cpp:349-365. -/
def tran (X : ProdMan P V) (x : Nat → P) (η : Nat → V) (y : Nat → P) (ξ old : Nat → V) : Nat → V :=
  comps X old fun i j => (X.M i).tran (X.flag i) (x j) (η j) (y j) (ξ j)

/-- `InverseVectorTransport` without reflections, MultiManifolds.cpp:367-383. -/
def invTran (X : ProdMan P V) (x : Nat → P) (η : Nat → V) (y : Nat → P) (ξ old : Nat → V) : Nat → V :=
  comps X old fun i j => (X.M i).invTran (X.flag i) (x j) (η j) (y j) (ξ j)

/-- The vector `xixflat` of `HaddScaledRank1OPE`, MultiManifolds.cpp:407-418. -/
def flat (X : ProdMan P V) (x : Nat → P) (ξ : Nat → V) : Nat → V := comps X ξ fun i j => (X.M i).flat (X.flag i) (x j) (ξ j)

/-- `ObtainIntr`, MultiManifolds.cpp:421-440; the result is a separate object. -/
def toIntr (X : ProdMan P V) (x : Nat → P) (η old : Nat → V) : Nat → V := comps X old fun i j => if X.flag i then (X.M i).toIntr (x j) (η j) else η j

/-- `ObtainExtr`, MultiManifolds.cpp:442-460. -/
def toExtr (X : ProdMan P V) (x : Nat → P) (η old : Nat → V) : Nat → V := comps X old fun i j => if X.flag i then (X.M i).toExtr (x j) (η j) else η j

/-- `EucGradToGrad`, MultiManifolds.cpp:462-488. -/
def grad (X : ProdMan P V) (x : Nat → P) (g old : Nat → V) : Nat → V := comps X old fun i j => (X.M i).grad (X.flag i) (x j) (g j)

/-- `EucHvToHv`, MultiManifolds.cpp:490-505. -/
def hess (X : ProdMan P V) (x : Nat → P) (η ξ old : Nat → V) : Nat → V := comps X old fun i j => (X.M i).hess (X.flag i) (x j) (η j) (ξ j)

/-- Coordinate vectors of the tangent space of the product and operators on them. -/
abbrev Op := (Nat → ℝ) → Nat → ℝ

/-- The operator that acts by `T` on the coordinates `start ≤ k < fin` and leaves the others. -/
def onBlock (start fin : Nat) (T : Op) : Op := fun v k => if start ≤ k ∧ k < fin then T (fun i => v (start + i)) (k - start) else v k

/-- `TranHInvTran` without reflections, MultiManifolds.cpp:385-405. `res` is the operator held by the result object; `T i j`, `Ti i j` are the transport and the inverse transport of
component `j`; `HInvTran(…, H, start, end, …)` multiplies the columns of the block from the right by the inverse transport, `TranH` the rows from the left by the transport;
`len j` is the number of coordinates of the component. -/
def tranHInvTran (X : ProdMan P V) (len : Nat → Nat) (T Ti : Nat → Nat → Op) (_Hx res : Op) : Op :=
  ((loop X.pw X.nt).foldl (fun s q =>
    let start := s.1
    let fin := start + len q.2
    let h1 : Op := fun v => s.2 (onBlock start fin (Ti q.1 q.2) v)
    let h2 : Op := fun v => onBlock start fin (T q.1 q.2) (h1 v)
    (fin, h2)) (0, res)).2

end Verif.Multi
