import Verif.Solver.CayleySearch

/-!
# Which vectors the limited-memory SR1 solver passes to the Cayley transports

`SolversSMTR::Run` (`Solvers/SolversSMTR.cpp:9-120`) with the overrides of `LRTRSR1` (`Solvers/LRTRSR1.cpp:443-455, 508-593`) on the Stiefel manifold with the Cayley retraction and
transport. Kept are the two point objects and the stored pairs, oldest first; trial steps, the acceptance of steps and of pairs are arbitrary. Tangent vectors are extrinsic. The layout of
the stored pairs in memory is that of `Verif.Solver.LRTRSR1`.
-/

namespace Verif.Stiefel

open Matrix Verif.Mat

variable {n p : Type*} [Fintype n] [DecidableEq n] [Fintype p] [DecidableEq p]

/-- The objects of the solver. -/
structure TRPts (n p : Type*) where
  x1 : CayPoint n p
  x2 : CayPoint n p
  pairs : List (Matrix n p ℝ × Matrix n p ℝ)

/-- One iteration: the trial step at the current iterate; whether the new pair is stored; how many of the oldest pairs go then (none, one when the memory is full, all with `LMrestart`);
whether the trial point is accepted; steps from `x2` the user's stopping function tries. -/
structure TRIter (n p : Type*) where
  step : Matrix n p ℝ → Matrix n p ℝ
  store : Bool
  drop : Nat
  accept : Bool
  stop : List (Matrix n p ℝ)

/-- The loop of `Acceptence`, LRTRSR1.cpp:450-454. The pairs afterwards and the calls. -/
noncomputable def movePairs (s : CayPoint n p) (η y : Matrix n p ℝ) :
    List (Matrix n p ℝ × Matrix n p ℝ) → Option (CayPoint n p × List (Matrix n p ℝ × Matrix n p ℝ) × List (Moved n p))
  | [] => some (s, [], [])
  | (a, b) :: l =>
    (cayStep s (.transport η a)).bind fun r =>
    (cayStep r.1 (.transport η b)).bind fun q =>
    (movePairs q.1 η y l).map fun t => (t.1, (r.2, q.2) :: t.2.1, ⟨s.x, η, y, a, r.2⟩ :: ⟨r.1.x, η, y, b, q.2⟩ :: t.2.2)

/-- The body of the loop with gradient `g`: retraction (SolversSMTR.cpp:38), inverse transport of the new gradient and the pair (LRTRSR1.cpp:513-516), its storage, and, for an accepted point,
`Acceptence`, the stopping test and the exchange (SolversSMTR.cpp:84-91). Returned are also the inverse transports and the transports made. -/
noncomputable def trIter (g : Matrix n p ℝ → Matrix n p ℝ) (s : TRPts n p) (it : TRIter n p) : Option (TRPts n p × List (Moved n p) × List (Moved n p)) :=
  let η := it.step s.x1.x
  (cayStep s.x1 (.retract η)).bind fun r =>
  (cayStep r.1 (.invTransport η (g r.2))).bind fun q =>
  let pairs := if it.store then s.pairs.drop it.drop ++ [(η, q.2 - g s.x1.x)] else s.pairs
  let inv := [⟨s.x1.x, η, r.2, g r.2, q.2⟩]
  if it.accept then
    (movePairs q.1 η r.2 pairs).bind fun m =>
    (cayRun ⟨r.2, none⟩ (it.stop.map .retract)).map fun y => (⟨y, m.1, m.2.1⟩, inv, m.2.2)
  else some (⟨q.1, ⟨r.2, none⟩, pairs⟩, inv, [])

/-- The loop. -/
noncomputable def trCayRun (g : Matrix n p ℝ → Matrix n p ℝ) : TRPts n p → List (TRIter n p) → Option (TRPts n p × List (Moved n p) × List (Moved n p))
  | s, [] => some (s, [], [])
  | s, it :: its => (trIter g s it).bind fun r => (trCayRun g r.1 its).map fun q => (q.1, r.2.1 ++ q.2.1, r.2.2 ++ q.2.2)

end Verif.Stiefel
