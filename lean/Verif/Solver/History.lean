import Verif.Mem.Heap

/-!
# Recording the series of a run

The solvers fetch a raw pointer to the memory of `timeSeries`, `funSeries` and `gradSeries` (or `dirSeries`) once at the beginning of `Run` and store through it in every iteration; the callbacks of the user, which get the series or can fetch
them from the solver, run in between. Storage is that of `Verif/Mem/Heap.lean`.
-/

namespace Verif.Mem

variable {V : Type}

/-- `ptr[i] = v` through a raw pointer to the allocation `p`; a freed allocation or an index past its end is undefined. -/
def storeAt (s : State V) (p : Addr) (i : Nat) (v : V) : Out (State V) :=
  match s.bufs p with
  | none => .ub
  | some b => if i < b.length then .ok { s with bufs := upd s.bufs p (some (b.set i (some v))) } else .ub

/-- The beginning of a run: `if (Verbose >= ITERRESULT) funSeries = Vector(1 + Max_Iteration);` (Solvers.cpp:37-41; SolversSM.cpp and SolversNSM.cpp:13 for the norms), then `funSeriesptr = funSeries.ObtainWritePartialData();`
(SolversSMLS.cpp:28-30, SolversSMTR.cpp:23-25, ManPG.cpp:38-40, AManPG.cpp:111-113, SolversNSMSubLS.cpp:20-22). `fs` is the series, `verbose` the test, `len` is `1 + Max_Iteration`; the temporary vector is constructed, assigned and destroyed. -/
def openSeries (verbose : Bool) (len : Nat) (fs : Name) (s : State V) : Out (State V × Addr) :=
  (if verbose then run s [.decl len 1 1, .assign fs s.objs.length, .destroy s.objs.length] else .ok s).bind fun s =>
    match s.live fs with
    | none => .client
    | some o =>
      (copyOnWrite s fs o).bind fun s =>
        match (s.live fs).bind Obj.space with
        | none => .ub
        | some p => .ok (s, p)

/-- The stores of a run, SolversSMLS.cpp:36-43, 117-128, SolversSMTR.cpp:28-32, 104-113, ManPG.cpp:47-52, 127-133, AManPG.cpp:120-125, 228-234, SolversNSMSubLS.cpp:28-35, 89-101. An entry of the script is what the rest of the program (library and user)
does to objects before the store, the index, and the value. -/
def record (verbose : Bool) (p : Addr) : List (List (Op V) × Nat × V) → State V → Out (State V)
  | [], s => .ok s
  | (ops, i, v) :: rest, s =>
    (run s ops).bind fun s => (if verbose then storeAt s p i v else .ok s).bind fun s => record verbose p rest s

/-- One series during one run. -/
def runSeries (verbose : Bool) (len : Nat) (fs : Name) (script : List (List (Op V) × Nat × V)) (s : State V) : Out (State V) :=
  (openSeries verbose len fs s).bind fun q => record verbose q.2 script q.1

/-- The indices of the stores to `timeSeries`, `funSeries`, `gradSeries` in a run of `k` iterations, and of those to `dirSeries` in ManPG and AManPG: `0`, then `iter` in each iteration. -/
def stdIdx (k : Nat) : List Nat := List.range (k + 1)

/-- The indices of the stores to `dirSeries` in `SolversNSMSubLS::Run`: `dirSeriesptr[iter] = 0` with `iter = 0` (SolversNSMSubLS.cpp:32), then `dirSeriesptr[iter - 1] = ndir1` with `iter = 1, …, k` (line 98). -/
def subIdx (k : Nat) : List Nat := 0 :: List.range k

end Verif.Mem
