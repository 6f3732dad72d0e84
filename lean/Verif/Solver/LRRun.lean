import Verif.Solver.LBFGS
import Verif.Solver.LSRun

/-!
# Line-search runs with memory

The run of `Verif.Solver.LSRun` for `LRBFGS`: the search direction is computed from the pairs collected on the way. Points are an arbitrary type, the tangent spaces are identified with one
inner product space `E` (the intrinsic representation), vector transports are linear isometries. Arithmetic is exact.
-/

namespace Verif.Solver

open scoped RealInnerProductSpace

open Verif.QN

variable {X E : Type} [NormedAddCommGroup E] [InnerProductSpace ℝ E]

/-- Problem and manifold as a solver sees them: value, gradient, retraction, differentiated retraction `DiffRetraction(x, eta, ., xi)`, vector transport, `Beta`, preconditioner. -/
structure Geo (X E : Type) [NormedAddCommGroup E] [InnerProductSpace ℝ E] where
  f : X → ℝ
  grad : X → E
  retr : X → E → X
  dretr : X → E → E → E
  T : X → E → (E ≃ₗᵢ[ℝ] E)
  beta : X → E → ℝ
  P : X → E → E

/-- What the line searches see: `initialslope` (SolversSMLS.cpp:50), `h` (463-469), `dh` (471-479). -/
noncomputable def Geo.land (G : Geo X E) : Land X E where
  f := G.f
  gnorm x := ‖G.grad x‖
  slope x d := ⟪G.grad x, d⟫
  move x d t := G.retr x (t • d)
  der x d t := ⟪G.grad (G.retr x (t • d)), G.dretr x (t • d) d⟫

/-- Parameters of `LRBFGS` (LRBFGS.cpp:21-36). -/
structure LRCfg where
  cau : Cautious
  restart : Bool
  cap : ℕ

/-- `GetSearchDir`, LRBFGS.cpp:113-117, at the point `x`; the contents of new memory are arbitrary. -/
noncomputable def lrDir (G : Geo X E) (junk : ℕ → ℝ) (x : X) (st : LState E) : Option E := (st.buf.hv (G.P x) st.gamma junk (G.grad x)).map fun r => (-1 : ℝ) • r

/-- The memory after the iterations of `past` (newest first) of a solver that was just constructed: `UpdateData` is called after every search (SolversSMLS.cpp:103), with `eta2 = stepsize * eta1`
and with `ngf2` still the norm of the gradient at the old point. `none`: undefined behaviour. -/
noncomputable def lrMem (G : Geo X E) (c : LRCfg) (junk : ℕ → ℝ) (ngf0 : ℝ) : Past X → Option (LState E)
  | [] => some ⟨Buf.fresh c.cap, 1⟩
  | [_] => some ⟨Buf.fresh c.cap, 1⟩
  | (x2, t) :: (x1, u) :: p =>
    match lrMem G c junk ngf0 ((x1, u) :: p) with
    | none => none
    | some st =>
      match lrDir G junk x1 st with
      | none => none
      | some eta1 =>
        let eta2 := t • eta1
        lrbfgsUpdate c.cau c.restart (G.P x2)
          { T := G.T x1 eta2, eta2 := eta2, gf1 := G.grad x1, gf2 := G.grad x2, beta := G.beta x1 eta2, ngf2 := ‖G.grad x1‖, ngf0 := ngf0, iter := p.length + 1 } st

/-- The search direction after `past`; after undefined behaviour any vector. -/
noncomputable def lrDirection (G : Geo X E) (c : LRCfg) (junk : ℕ → ℝ) (ngf0 : ℝ) (ub : E) : Past X → E
  | [] => ub
  | (x, t) :: p =>
    match lrMem G c junk ngf0 ((x, t) :: p) with
    | none => ub
    | some st => (lrDir G junk x st).getD ub

end Verif.Solver
