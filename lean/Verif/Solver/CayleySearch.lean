import Verif.Manifold.CayleyCache

/-!
# Which steps the line-search solvers pass to the Cayley transports

`SolversSMLS::Run` (`Solvers/SolversSMLS.cpp:8-150`) on the Stiefel manifold with the Cayley retraction and transport. Only the two point objects `x1`, `x2`, the direction `eta1` and the
step `eta2` are kept; directions, step sizes, the vectors transported and what the user's functions do are arbitrary. Tangent vectors are extrinsic.
-/

namespace Verif.Stiefel

open Matrix Verif.Mat

variable {n p : Type*} [Fintype n] [DecidableEq n] [Fintype p] [DecidableEq p]

/-- The objects of the solver. -/
structure LSPts (n p : Type*) where
  x1 : CayPoint n p
  x2 : CayPoint n p
  η1 : Matrix n p ℝ
  η2 : Matrix n p ℝ

/-- One iteration: the direction chosen by `GetSearchDir`; the vectors transported by `InitialStepSize` (`eta2` and `gf2` with `LSSM_BBSTEP`, none otherwise; lines 214-219); steps from `x1` the
user's line search tries on its own (line 73); the trials of the line search, a step size and whether `dh` is called after `h`, at least one; the vectors transported by `UpdateData`; steps from `x2`
the user's stopping function tries. -/
structure LSIter (n p : Type*) where
  dir : Matrix n p ℝ
  bb : List (Matrix n p ℝ)
  user : List (Matrix n p ℝ)
  trial : ℝ × Bool
  trials : List (ℝ × Bool)
  upd : List (Matrix n p ℝ)
  stop : List (Matrix n p ℝ)

/-- A call of `VectorTransport(x, η, y, ξ)` with its result `r`. -/
structure Moved (n p : Type*) where
  x : Matrix n p ℝ
  η : Matrix n p ℝ
  y : Matrix n p ℝ
  ξ : Matrix n p ℝ
  r : Matrix n p ℝ

/-- Transports of several vectors, one after the other. -/
noncomputable def moveAll (s : CayPoint n p) (η y : Matrix n p ℝ) : List (Matrix n p ℝ) → Option (CayPoint n p × List (Moved n p))
  | [] => some (s, [])
  | ξ :: l => (cayStep s (.transport η ξ)).bind fun r => (moveAll r.1 η y l).map fun q => (q.1, ⟨s.x, η, y, ξ, r.2⟩ :: q.2)

/-- `h` (lines 463-469) followed, if the flag is set, by `dh` (lines 471-479). `Retraction` writes to `x2`, which has no fields of the retraction afterwards. -/
noncomputable def tryStep (s : LSPts n p) (t : ℝ × Bool) : Option (LSPts n p) :=
  (cayStep s.x1 (.retract (t.1 • s.η1))).bind fun r =>
    if t.2 then (cayStep r.1 (.diff (t.1 • s.η1) s.η1)).map fun q => ⟨q.1, ⟨r.2, none⟩, s.η1, t.1 • s.η1⟩
    else some ⟨r.1, ⟨r.2, none⟩, s.η1, t.1 • s.η1⟩

/-- The trials of a line search. -/
noncomputable def tryAll : LSPts n p → List (ℝ × Bool) → Option (LSPts n p)
  | s, [] => some s
  | s, t :: l => (tryStep s t).bind fun s => tryAll s l

/-- The body of the loop, lines 49-131. In the first iteration `InitialStepSize` transports nothing. Assignments of points copy the fields (`Element::CopyTo`, Element.cpp:2587-2630). -/
noncomputable def lsIter (first : Bool) (s : LSPts n p) (it : LSIter n p) : Option (LSPts n p × List (Moved n p)) :=
  (if first then some (s.x2, []) else moveAll s.x2 s.η2 s.x1.x it.bb).bind fun b =>
  (cayRun s.x1 (it.user.map .retract)).bind fun u =>
  (tryAll ⟨u, b.1, it.dir, s.η2⟩ (it.trial :: it.trials)).bind fun t =>
  (moveAll t.x1 t.η2 t.x2.x it.upd).bind fun d =>
  (cayRun t.x2 (it.stop.map .retract)).map fun y => (⟨y, d.1, t.η1, t.η2⟩, b.2 ++ d.2)

/-- The loop. -/
noncomputable def lsRun : Bool → LSPts n p → List (LSIter n p) → Option (LSPts n p × List (Moved n p))
  | _, s, [] => some (s, [])
  | first, s, it :: its => (lsIter first s it).bind fun r => (lsRun false r.1 its).map fun q => (q.1, r.2 ++ q.2)

end Verif.Stiefel
