import Verif.Solver.LRTRSR1

/-!
# LRTRSR1: which memory a pass reads

Which entries of the buffers `S`, `Y` and of the arrays `SS`, `SY` have been written, over the runs of one solver object. Values are
left out: whether a pair is stored and whether a candidate is accepted are inputs. A read of memory that nothing was
written to, or a failed assertion, is the outcome `none`.
-/

namespace Verif.LSR1

/-- `Currentlength`, `beginidx`, which vectors of `S` and `Y` are nonempty, which entries of `SS` and `SY` have been written. -/
structure Store where
  cur : Nat
  beg : Nat
  vec : Nat → Bool
  mat : Nat → Bool

/-- The object after its construction, LRTRSR1.cpp:20-39. -/
def Store.fresh : Store := ⟨0, 0, fun _ => false, fun _ => false⟩

/-- The first lines of `LRTRSR1::Run`, LRTRSR1.cpp:73-91: new buffers of empty vectors, new uninitialised arrays; `Currentlength` and
`beginidx` are not touched. -/
def Store.newRun (b : Store) : Store := { b with vec := fun _ => false, mat := fun _ => false }

/-- What `tCG_TR` needs, LRTRSR1.cpp:97-148, for vectors with `n` entries: the stored pairs (line 113-115), the
leading blocks of the arrays (line 122), and the matrix of eigenvectors, `n` by `min n k`, must fit into `P_parallel`, which is `n` by `k`
(line 137 with the assertion of Element.cpp:1703). In a build without assertions the next read is outside the
array of the `min n k` eigenvalues (line 148). -/
def Store.canSolve (L n : Nat) (b : Store) : Bool :=
  (List.range b.cur).all (fun i => b.vec ((i + b.beg) % L)) &&
  (List.range b.cur).all (fun i => (List.range b.cur).all fun j => b.mat (i + j * L)) &&
  decide (n * b.cur = n * min n b.cur)

/-- Storing a pair, LRTRSR1.cpp:539-586. -/
def Store.push (L : Nat) (restart : Bool) (b0 : Store) : Option Store :=
  let b := if restart = true ∧ L ≤ b0.cur then { b0 with cur := 0 } else b0
  if b.cur < L then
    if (List.range b.cur).all b.vec then
      some { b with
        vec := fun i => b.vec i || i == b.cur, cur := b.cur + 1
        mat := fun i => b.mat i || i == b.cur + b.cur * L || (List.range b.cur).any fun j => i == b.cur + j * L || i == j + b.cur * L }
    else none
  else if 0 < L then
    if (List.range (L - 1)).all (fun i => (List.range (L - 1)).all fun j => b.mat (i + 1 + (j + 1) * L)) &&
        (List.range (L - 1)).all (fun i => b.vec ((i + b.beg + 1) % L) || (i + b.beg + 1) % L == b.beg) then
      some { b with
        vec := fun i => b.vec i || i == b.beg, beg := (b.beg + 1) % L
        mat := fun i => b.mat i || i == L * L - 1 || (List.range (L - 1)).any fun j => i == j + (L - 1) * L || i == L - 1 + j * L }
    else none
  else some b

/-- `Acceptence`, LRTRSR1.cpp:447-454. -/
def Store.transport (b : Store) : Option Store := if (List.range b.cur).all b.vec then some b else none

/-- One pass of `SolversSMTR::Run`: inner solver, update of the memory when the pair is stored (`u`), transport when the candidate is
accepted (`a`). -/
def Store.pass (L n : Nat) (restart : Bool) (b : Store) (e : Bool × Bool) : Option Store :=
  if b.canSolve L n then
    (if e.1 then b.push L restart else some b).bind fun b' => if e.2 then b'.transport else some b'
  else none

/-- The passes of a run. -/
def Store.passes (L n : Nat) (restart : Bool) (b : Store) (es : List (Bool × Bool)) : Option Store :=
  es.foldlM (Store.pass L n restart) b

/-- A run of the object. -/
def Store.run (L n : Nat) (restart : Bool) (b : Store) (es : List (Bool × Bool)) : Option Store :=
  b.newRun.passes L n restart es

end Verif.LSR1
