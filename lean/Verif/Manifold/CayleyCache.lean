import Verif.Manifold.Stiefel

/-!
# What the Cayley retraction leaves at the point, and who reads it

`Stiefel::CayleyRetraction` attaches four matrices to the point it starts from; the transport, the inverse transport and the differentiated retraction read them there and do not look
at the step they are given. The model follows a sequence of such calls on one point object. Tangent vectors are extrinsic (`ChooseParamsSet5`) and the result is another object than `x`.
-/

namespace Verif.Stiefel

open Matrix Verif.Mat

variable {n p : Type*} [Fintype n] [DecidableEq n] [Fintype p] [DecidableEq p]

/-- The fields `Mk2`, `Mk3`, `LUP` and `U`, Stiefel.cpp:804-807. `LUP` holds the factors of a matrix together with the permutation; the model keeps the matrix. -/
structure CayCache (n p : Type*) where
  mk2 : Matrix (p ⊕ p) (p ⊕ p) ℝ
  mk3 : Matrix (p ⊕ p) p ℝ
  lup : Matrix (p ⊕ p) (p ⊕ p) ℝ
  U : Matrix n (p ⊕ p) ℝ

/-- The object `x`: its entries and the fields attached to it. -/
structure CayPoint (n p : Type*) where
  x : Matrix n p ℝ
  fields : Option (CayCache n p)

/-- The calls: `Retraction(x, η)`, `VectorTransport(x, η, y, ξ)`, `InverseVectorTransport(x, η, y, ξ)`, `DiffRetraction(x, η, y, ξ, true)`, and writing new entries to `x`. -/
inductive CayCall (n p : Type*)
  | retract (η : Matrix n p ℝ)
  | transport (η ξ : Matrix n p ℝ)
  | invTransport (η ξ : Matrix n p ℝ)
  | diff (η ξ : Matrix n p ℝ)
  | write (x : Matrix n p ℝ)

/-- `V` made from the field `U`, Stiefel.cpp:894-898: the halves exchanged, the second negated. -/
def CayCache.V (c : CayCache n p) : Matrix n (p ⊕ p) ℝ := fromCols c.U.toCols₂ (-c.U.toCols₁)

/-- One call: the point object afterwards and the matrix returned. `none`: `Element::Field` does not find the field (`Manifolds/Element.cpp:2800-2814`: a failed assertion, or data of `x`
itself read as if they were the field). `Retraction`: Stiefel.cpp:725-808, `AddToFields` replaces existing fields (Element.cpp:2770-2798). `VectorTransport`: Stiefel.cpp:883-922.
`InverseVectorTransport`: Stiefel.cpp:924-963. `DiffRetraction`: Stiefel.cpp:816-861; `Mk2ptr + 2 * p * p` are the last `p` columns. Write access removes the fields. -/
noncomputable def cayStep (s : CayPoint n p) : CayCall n p → Option (CayPoint n p × Matrix n p ℝ)
  | .retract η =>
    let c : CayCache n p := ⟨Stiefel.mk2 s.x η, Stiefel.mk3 s.x η, Stiefel.lup s.x η, cayU s.x η⟩
    some (⟨s.x, some c⟩, s.x + c.U * c.mk3)
  | .transport _ ξ => s.fields.map fun c => (s, ξ + c.U * (c.lup⁻¹ * (c.Vᵀ * ξ)))
  | .invTransport _ ξ => s.fields.map fun c => (s, ξ + c.V * ((c.lupᵀ)⁻¹ * (c.Uᵀ * ξ)))
  | .diff η ξ => s.fields.map fun c =>
    let m23 := c.mk2 * c.mk3
    (s, √(frob ξ ξ / frob η η) • (c.U * (c.mk2.toCols₂ + (1 / 2 : ℝ) • m23 + (1 / 2 : ℝ) • (c.lup⁻¹ * m23))))
  | .write x => some (⟨x, none⟩, x)

/-- The calls in turn; only the object is kept. -/
noncomputable def cayRun : CayPoint n p → List (CayCall n p) → Option (CayPoint n p)
  | s, [] => some s
  | s, c :: cs => (cayStep s c).bind fun r => cayRun r.1 cs

end Verif.Stiefel
