import Verif.Solver.ObjectTRMat
import Verif.Manifold.Multi

/-!
# The solvers on products of manifolds

The environments of `Verif.Obj` for `MultiManifolds` (Manifolds/MultiManifolds.cpp), over the reals with exact arithmetic. Points and vectors are functions of the component number, as in
`Verif.Manifold.Multi`; entries beyond the last component do not exist in the program and are arbitrary here. `oldP` and `oldV` are the contents of memory obtained for results.
`HasHHR = false`, no preconditioner.
-/

namespace Verif.Obj

open Matrix Verif.Mat Verif.Stiefel Verif.Intr Verif.Multi

/-- The arithmetic of `Element` on the memory of one component: `ScalarTimesVector`, `VectorLinearCombination`, `ScalarVectorAddVector` of `Manifold` (Manifold.cpp:69-98). `MultiManifolds` inherits
them (MultiManifolds.cpp:147-160); they run over the memory of all components. -/
structure VecOps (V : Type) where
  smul : ℝ → V → V
  lin : ℝ → V → ℝ → V → V
  axpy : ℝ → V → V → V

variable {P V : Type}

/-- A line-search solver on a product: `Problem::Grad` (Problem.cpp:61-70) calls `EucGradToGrad` and `ObtainIntr` of the product, which is intrinsic as made by its constructors. `DiffRetraction` is
called by the searches with `IsEtaXiSameDir = true` (SolversSMLS.cpp). -/
noncomputable def prodEnv (X : ProdMan P V) (L : VecOps V) (oldP : Nat → P) (oldV : Nat → V) (f : (Nat → P) → ℝ) (G : (Nat → P) → Nat → V) : Env ℝ (Nat → P) (Nat → V) :=
  realEnv f (fun x => if X.intr then toIntr X x (grad X x (G x) oldV) oldV else grad X x (G x) oldV) (fun x u v => metric X x u v) (fun x η => (retr X x η oldP).1)
    (fun x η y ξ => diffRetr X x η y ξ true oldV) (fun x η y ξ => tran X x η y ξ oldV) (fun c v j => L.smul c (v j)) (fun a v b w j => L.lin a (v j) b (w j))

/-- A trust-region solver on a product. -/
noncomputable def prodTR (X : ProdMan P V) (L : VecOps V) (oldP : Nat → P) (oldV : Nat → V) (f : (Nat → P) → ℝ) (G : (Nat → P) → Nat → V) (pw : ℝ → ℝ) : TREnv ℝ (Nat → P) (Nat → V) where
  toEnv := prodEnv X L oldP oldV f G
  axpy c v w j := L.axpy c (v j) (w j)
  proj x v := Multi.proj X x v oldV
  powtheta := pw

/-- `Problem::HessianEta` on a product (Problem.cpp:72-81): `ObtainExtr`, the user's Euclidean Hessian `H`, `EucHvToHv` of every component (MultiManifolds.cpp:490-505), `ObtainIntr`. The component
functions `hv i` get the field `EGrad` of the component (set by `EucGradToGrad` of the component, MultiManifolds.cpp:480-486) as an argument. -/
def prodHess (X : ProdMan P V) (hv : Nat → P → V → V → V → V) (oldV : Nat → V) (G : (Nat → P) → Nat → V) (H : (Nat → P) → (Nat → V) → Nat → V) (x : Nat → P) (η : Nat → V) : Nat → V :=
  if X.intr then
    let e := toExtr X x η oldV
    let w := H x e
    toIntr X x (comps X oldV fun i j => hv i (x j) (G x j) (e j) (w j)) oldV
  else
    let w := H x η
    comps X oldV fun i j => hv i (x j) (G x j) (η j) (w j)

/-! ## A single manifold as an environment -/

/-- The line-search solvers on the manifold `A` alone, with its flag. -/
noncomputable def compEnv (A : Comp P V) (a : Bool) (L : VecOps V) (f : P → ℝ) (G : P → V) : Env ℝ P V :=
  realEnv f (fun x => if a then A.toIntr x (A.grad a x (G x)) else A.grad a x (G x)) (fun x u v => A.metric a x u v) (fun x η => A.retr a x η)
    (fun x η y ξ => A.diffRetr a x η y ξ true) (fun x η y ξ => A.tran a x η y ξ) L.smul L.lin

/-- The trust-region solvers. -/
noncomputable def compTR (A : Comp P V) (a : Bool) (L : VecOps V) (f : P → ℝ) (G : P → V) (pw : ℝ → ℝ) : TREnv ℝ P V where
  toEnv := compEnv A a L f G
  axpy := L.axpy
  proj x v := A.proj a x v
  powtheta := pw

/-- The Hessian on the manifold alone. -/
def compHess (A : Comp P V) (a : Bool) (hv : P → V → V → V → V) (G : P → V) (H : P → V → V) (x : P) (η : V) : V :=
  if a then
    let e := A.toExtr x η
    A.toIntr x (hv x (G x) e (H x e))
  else hv x (G x) η (H x η)

/-! ## Stiefel and Grassmann as components -/

variable {n p : ℕ}

/-- The memory of a vector: a matrix, or the list of coordinates. -/
abbrev StV (n p : ℕ) := Matrix (Fin n) (Fin p) ℝ ⊕ List ℝ

/-- The content read as a matrix; reading coordinates as a matrix does not occur in the runs. -/
def asMat : StV n p → Matrix (Fin n) (Fin p) ℝ
  | .inl m => m
  | .inr _ => 0

/-- The content read as coordinates. -/
def asCoord : StV n p → List ℝ
  | .inl _ => []
  | .inr c => c

/-- The arithmetic on either content (Manifold.cpp:69-98). -/
noncomputable def stOps : VecOps (StV n p) where
  smul c
    | .inl v => .inl (c • v)
    | .inr v => .inr (v.map (c * ·))
  lin a u b w := match u, w with
    | .inl u, .inl w => .inl (a • u + b • w)
    | .inr u, .inr w => .inr (List.zipWith (fun s t => a * s + b * t) u w)
    | u, _ => u
  axpy a u w := match u, w with
    | .inl u, .inl w => .inl (a • u + w)
    | .inr u, .inr w => .inr (List.zipWith (fun s t => a * s + t) u w)
    | u, _ => u

/-- `Stiefel` with the Euclidean metric and the qf retraction as a component: the flag chooses between the operations of `stiefelIntrEnv` and `stiefelExtrEnv` (`Verif.Solver.ObjectMat`, same lines
of Stiefel.cpp). The virtual functions not called by the solvers considered are those of `B`. -/
noncomputable def stiefelComp (hp : p ≤ n) (junk : ℕ → ℝ) (hhr : Matrix (Fin n) (Fin p) ℝ → Frame n p) (B : Comp (Framed n p) (StV n p)) : Comp (Framed n p) (StV n p) :=
  { B with
    metric := fun a _ u v => if a then dot (asCoord u) (asCoord v) else frob (asMat u) (asMat v)
    proj := fun a x v => if a then v else .inl (Stiefel.proj x.1 (asMat v))
    retr := fun a x v =>
      let e := if a then stiefelExtr junk x.2.1 x.2.2 (asCoord v) else asMat v
      let h := hhr (x.1 + e)
      (qfPoint hp h, h)
    diffRetr := fun a x _ y ξ _ =>
      if a then .inr (stiefelIntr y.2.1 y.2.2 (diffQf y.1 (topR hp y.2.2) (stiefelExtr junk x.2.1 x.2.2 (asCoord ξ)))) else .inl (diffQf y.1 (topR hp y.2.2) (asMat ξ))
    tran := fun a _ _ y ξ => if a then ξ else .inl (Stiefel.proj y.1 (asMat ξ))
    toIntr := fun x v => .inr (stiefelIntr x.2.1 x.2.2 (asMat v))
    toExtr := fun x v => .inl (stiefelExtr junk x.2.1 x.2.2 (asCoord v))
    grad := fun _ x g => .inl (Stiefel.proj x.1 (asMat g)) }

/-- `Stiefel::EucHvToHv` (Stiefel.cpp:339-352) as the component function of `prodHess`. -/
noncomputable def stiefelHv (x : Framed n p) (g v w : StV n p) : StV n p := .inl (hess x.1 (asMat g) (asMat v) (asMat w))

/-- `Grassmann` as a component, from the operations of `grassIntrEnv` and `grassExtrEnv`. -/
noncomputable def grassComp (hp : p ≤ n) (junk : ℕ → ℝ) (hhr : Matrix (Fin n) (Fin p) ℝ → Frame n p) (B : Comp (Framed n p) (StV n p)) : Comp (Framed n p) (StV n p) :=
  { B with
    metric := fun a _ u v => if a then dot (asCoord u) (asCoord v) else frob (asMat u) (asMat v)
    proj := fun a x v => if a then v else .inl (gProj x.1 (asMat v))
    retr := fun a x v =>
      let e := if a then grassExtr junk x.2.1 (asCoord v) else asMat v
      let h := hhr (x.1 + e)
      (qfPoint hp h, h)
    diffRetr := fun a x _ y ξ _ =>
      if a then .inr (grassIntr y.2.1 (diffQf y.1 (topR hp y.2.2) (grassExtr junk x.2.1 (asCoord ξ)))) else .inl (diffQf y.1 (topR hp y.2.2) (asMat ξ))
    tran := fun a _ _ y ξ => if a then ξ else .inl (gProj y.1 (asMat ξ))
    toIntr := fun x v => .inr (grassIntr x.2.1 (asMat v))
    toExtr := fun x v => .inl (grassExtr junk x.2.1 (asCoord v))
    grad := fun _ x g => .inl (gProj x.1 (asMat g)) }

/-- `Grassmann::EucHvToHv` (Grassmann.cpp:204-210). -/
noncomputable def grassHv (x : Framed n p) (g v w : StV n p) : StV n p := .inl (gHess x.1 (asMat g) (asMat v) (asMat w))

end Verif.Obj
