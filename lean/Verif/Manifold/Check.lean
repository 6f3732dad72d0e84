import Verif.Manifold.Sphere

/-!
# The self-tests of a manifold

Models of the functions `Check...` of `Manifold` (Manifolds/Manifold.cpp:318-666) that compare two computed quantities. They draw Gaussian vectors, project them and print what the user is
told to compare. The model returns the printed quantities as a function of the drawn vectors.

Simplifications: real arithmetic; `none` stands for an operation that produced NaN. Points are elements, so that they can be subtracted (`pt`). Vectors given by their entries (`E`) and
vectors given by coordinates (`I`) have different types; which of the two formulas `Metric` uses depends on the member `IsIntrApproach`, also when it is applied to a vector of the other
kind (`metIE`, `metEI`). Printing of `x` and of intermediate results is left out. `CheckTranHInvTran` and `CheckHaddScaledRank1OPE` compare nothing and are not modelled.
-/

namespace Verif.Check

/-- The member functions of a manifold that the self-tests call. The suffix is the kind of the vectors they are given. -/
structure Mani (X E I : Type) where
  /-- member `IsIntrApproach` -/
  intr : Bool
  pt : X → E
  /-- `ExtrProjection` -/
  proj : X → E → E
  /-- `ObtainIntr`, `ObtainExtr` -/
  toI : X → E → I
  toE : X → I → E
  /-- `Metric` while `IsIntrApproach` is false -/
  metE : X → E → E → ℝ
  metEI : X → I → I → ℝ
  /-- `Metric` while `IsIntrApproach` is true -/
  metI : X → I → I → ℝ
  metIE : X → E → E → ℝ
  retrE : X → E → Option X
  retrI : X → I → Option X
  /-- `DiffRetraction(x, eta, y, xi, same)` -/
  diffE : X → E → X → E → Bool → Option E
  diffI : X → I → X → I → Bool → Option I
  /-- first entry of the field "beta" that `DiffRetraction` with equal directions attaches to the direction, if any -/
  betaE : X → E → X → Option ℝ
  betaI : X → I → X → Option ℝ
  vtE : X → E → X → E → Option E
  vtI : X → I → X → I → Option I
  ivtE : X → E → X → E → Option E
  ivtI : X → I → X → I → Option I
  coE : X → E → X → E → Option E
  coI : X → I → X → I → Option I

variable {X E I : Type}

/-- `Metric` of two vectors given by entries. -/
def Mani.metOnE (M : Mani X E I) (x : X) (a b : E) : ℝ := if M.intr then M.metIE x a b else M.metE x a b

/-- `Metric` of two vectors given by coordinates. -/
def Mani.metOnI (M : Mani X E I) (x : X) (a b : I) : ℝ := if M.intr then M.metI x a b else M.metEI x a b

/-- What `CheckIntrExtr` prints: the vector and its coordinates, both norms, and the two after going back and forth; last the member `IsIntrApproach` afterwards. -/
structure IntrExtr (E I : Type) where
  ex1 : E
  inpE : ℝ
  inpI : ℝ
  in1 : I
  ex2 : E
  in2 : I
  flag : Bool

/-- `Manifold::CheckIntrExtr`, Manifold.cpp:318-342: `v` is the vector drawn. -/
def checkIntrExtr (M : Mani X E I) (x : X) (v : E) : IntrExtr E I :=
  let e := M.proj x v
  let i := M.toI x e
  let old := M.intr
  let M1 := { M with intr := false }
  let a := M1.metOnE x e e
  let M2 := { M1 with intr := true }
  let b := M2.metOnI x i i
  let M3 := { M2 with intr := old }
  let e2 := M3.toE x i
  ⟨e, a, b, i, e2, M3.toI x e2, M3.intr⟩

/-- `Manifold::CheckIsometryofVectorTransport`, Manifold.cpp:504-534: the two numbers. -/
def checkIso (M : Mani X E I) (x : X) (v w : E) : Option (ℝ × ℝ) :=
  let η := M.proj x v
  let ξ := M.proj x w
  if M.intr then
    let iη := M.toI x η
    let iξ := M.toI x ξ
    (M.retrI x iη).bind fun y => (M.vtI x iη y iξ).map fun ζ => (M.metOnI x iξ iξ, M.metOnI y ζ ζ)
  else (M.retrE x η).bind fun y => (M.vtE x η y ξ).map fun ζ => (M.metOnE x ξ ξ, M.metOnE y ζ ζ)

/-- `Manifold::CheckVecTranComposeInverseVecTran`, Manifold.cpp:572-606: the two vectors. -/
def checkCompose (M : Mani X E I) (x : X) (v w : E) : Option (E × E) :=
  let η := M.proj x v
  let ξ := M.proj x w
  if M.intr then
    let iη := M.toI x η
    (M.retrI x iη).bind fun y => (M.vtI x iη y (M.toI x ξ)).bind fun ζ => (M.ivtI x iη y ζ).map fun ξ' => (ξ, M.toE x ξ')
  else (M.retrE x η).bind fun y => (M.vtE x η y ξ).bind fun ζ => (M.ivtE x η y ζ).map fun ξ' => (ξ, ξ')

section Lin

variable [AddCommGroup E] [Module ℝ E] [AddCommGroup I] [Module ℝ I]

/-- `Manifold::CheckIsometryofInvVectorTransport`, Manifold.cpp:536-570: the two numbers. With coordinates the drawn vector is first multiplied by its length (line 553; `Metric` is that of
coordinates although the vector is given by entries). -/
noncomputable def checkInvIso (M : Mani X E I) (x : X) (v w : E) : Option (ℝ × ℝ) :=
  let η := M.proj x v
  if M.intr then
    let iη := M.toI x η
    (M.retrI x iη).bind fun y =>
      let ζ := M.proj y w
      let iζ := M.toI y (√(M.metOnE y ζ ζ) • ζ)
      (M.ivtI x iη y iζ).map fun ξ => (M.metOnI y iζ iζ, M.metOnI x ξ ξ)
  else
    (M.retrE x η).bind fun y =>
      let ζ := M.proj y w
      (M.ivtE x η y ζ).map fun ξ => (M.metOnE y ζ ζ, M.metOnE x ξ ξ)

/-- `Manifold::CheckcoTangentVector`, Manifold.cpp:458-502: the two numbers; `u` is the vector drawn at `y`. Without coordinates it is multiplied by its length (line 495). -/
noncomputable def checkCoTangent (M : Mani X E I) (x : X) (v w u : E) : Option (ℝ × ℝ) :=
  let η := M.proj x v
  let ξ := M.proj x w
  if M.intr then
    let iη := M.toI x η
    let iξ := M.toI x ξ
    (M.retrI x iη).bind fun y => (M.diffI x iη y iξ false).bind fun ζ =>
      let μ := M.toI y (M.proj y u)
      (M.coI x iη y μ).map fun c => (M.metOnI y μ ζ, M.metOnI x c iξ)
  else
    (M.retrE x η).bind fun y => (M.diffE x η y ξ false).bind fun ζ =>
      let μ := M.proj y u
      let μ := √(M.metOnE y μ μ) • μ
      (M.coE x η y μ).map fun c => (M.metOnE y μ ζ, M.metOnE x c ξ)

/-- The retraction on a vector given by entries, as all self-tests call it (lines 361-370, 397-424). -/
def Mani.retr (M : Mani X E I) (x : X) (η : E) : Option X := if M.intr then M.retrI x (M.toI x η) else M.retrE x η

/-- `Manifold::CheckRetraction`, Manifold.cpp:344-375: the normalised direction and the difference quotient; `eps` is `1e-5`. -/
noncomputable def checkRetraction (M : Mani X E I) (eps : ℝ) (x : X) (v : E) : Option (E × E) :=
  let η := M.proj x v
  (Verif.Sphere.fdiv 1 (√(M.metOnE x η η))).bind fun s =>
    let η := s • η
    (M.retr x (eps • η)).map fun y => (η, eps⁻¹ • (M.pt y - M.pt x))

/-- `Manifold::CheckDiffRetraction`, Manifold.cpp:377-429: the vector returned by `DiffRetraction` and the projected difference quotient. -/
noncomputable def checkDiff (M : Mani X E I) (eps : ℝ) (x : X) (same : Bool) (v w : E) : Option (E × E) :=
  let η := M.proj x v
  let ξ := if same then η else M.proj x w
  (M.retr x η).bind fun y =>
    (if M.intr then (M.diffI x (M.toI x η) y (M.toI x ξ) same).map (M.toE y) else M.diffE x η y ξ same).bind fun ζ =>
      (M.retr x (eps • ξ + η)).map fun z => (ζ, M.proj y (eps⁻¹ • (M.pt z - M.pt y)))

/-- What `CheckLockingCondition` prints: the scaling (1 if there is no field "beta"), the ratio of lengths, the scaled image of the differentiated retraction, the image of the vector
transport. -/
structure Locking (E : Type) where
  beta : ℝ
  ratio : ℝ
  scaled : E
  vt : E

/-- `Manifold::CheckLockingCondition`, Manifold.cpp:431-486. With coordinates both lengths are taken at `x` (lines 458-459). -/
noncomputable def checkLocking (M : Mani X E I) (x : X) (v : E) : Option (Locking E) :=
  let η := M.proj x v
  let ξ := (1 : ℝ) • η
  if M.intr then
    let iη := M.toI x η
    let iξ := M.toI x ξ
    (M.retrI x iη).bind fun y => (M.diffI x iη y iξ true).bind fun ζ =>
      (Verif.Sphere.fdiv (M.metOnI x iξ iξ) (M.metOnI x ζ ζ)).bind fun q =>
        (M.vtI x iη y iξ).map fun τ => ⟨(M.betaI x iη y).getD 1, √q, M.toE y (√q • ζ), M.toE y τ⟩
  else
    (M.retrE x η).bind fun y => (M.diffE x η y ξ true).bind fun ζ =>
      (Verif.Sphere.fdiv (M.metOnE x ξ ξ) (M.metOnE y ζ ζ)).bind fun q =>
        (M.vtE x η y ξ).map fun τ => ⟨(M.betaE x η y).getD 1, √q, √q • ζ, τ⟩

/-! ## Functions of the base class and of `SphereTx` that the other classes fall back to -/

/-- `Manifold::DiffRetraction`, Manifold.cpp:130-156: the vector returned (`P` is `Projection`, a flag is ignored). The field "beta" is C79. -/
def baseDiff (P : X → E → E) (_x : X) (_η : E) (y : X) (ξ : E) (_same : Bool) : Option E := some (P y ξ)

/-- `Manifold::coTangentVector`, Manifold.cpp:121-128. -/
def baseCo (P : X → E → E) (x : X) (_η : E) (_y : X) (ξ : E) : Option E := some (P x ξ)

/-- `Manifold::Retraction`, Manifold.cpp:102-109, on points that are vectors. -/
def baseRetr (x η : E) : Option E := some ((1 : ℝ) • η + x)

/-- `Manifold::InvRetraction`, Manifold.cpp:111-119. -/
def baseInvRetr (P : E → E → E) (x y : E) : E := P x ((-1 : ℝ) • x + y)

end Lin

section Tx

variable [NormedAddCommGroup E] [InnerProductSpace ℝ E]

open scoped RealInnerProductSpace

/-- `SphereTx::DiffRetraction`, SphereTx.cpp:96-123: the vector returned. -/
noncomputable def txDiff (x _η y ξ : E) (same : Bool) : Option E :=
  if same then Verif.Sphere.transport x y ξ else baseDiff Verif.Sphere.proj x _η y ξ same

/-- The manifold `SphereTx` (vectors by entries; there are no coordinates, SphereTx.cpp:27). -/
noncomputable def sphereTx (eps : ℝ) : Mani E E Unit where
  intr := false
  pt := id
  proj := Verif.Sphere.proj
  toI _ _ := ()
  toE _ _ := 0
  metE _ a b := ⟪a, b⟫
  metEI _ _ _ := 0
  metI _ _ _ := 0
  metIE _ a b := ⟪a, b⟫
  retrE := Verif.Sphere.txRetraction eps
  retrI _ _ := none
  diffE := txDiff
  diffI _ _ _ _ _ := none
  betaE _ _ _ := none
  betaI _ _ _ := none
  vtE x _ y ξ := Verif.Sphere.transport x y ξ
  vtI _ _ _ _ := none
  ivtE x _ y ξ := Verif.Sphere.invTransport x y ξ
  ivtI _ _ _ _ := none
  coE := baseCo Verif.Sphere.proj
  coI _ _ _ _ := none

/-- The manifold `Sphere` with the second set of parameters (exponential map, parallel translation, vectors by entries; Sphere.cpp:27-35). -/
noncomputable def sphereExp : Mani E E Unit where
  intr := false
  pt := id
  proj := Verif.Sphere.proj
  toI _ _ := ()
  toE _ _ := 0
  metE _ a b := ⟪a, b⟫
  metEI _ _ _ := 0
  metI _ _ _ := 0
  metIE _ a b := ⟪a, b⟫
  retrE := Verif.Sphere.expRetraction
  retrI _ _ := none
  diffE x η _ ξ _ := Verif.Sphere.expDiffRetraction x η ξ
  diffI _ _ _ _ _ := none
  betaE _ _ _ := none
  betaI _ _ _ := none
  vtE x _ y ξ := Verif.Sphere.transport x y ξ
  vtI _ _ _ _ := none
  ivtE x _ y ξ := Verif.Sphere.invTransport x y ξ
  ivtI _ _ _ _ := none
  coE x η _ ξ := Verif.Sphere.expCoTangent x η ξ
  coI _ _ _ _ := none

end Tx

end Verif.Check
