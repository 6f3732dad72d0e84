import Verif.Solver.QuasiNewton

/-!
# Limited-memory BFGS

Model of `LRBFGS` (`Solvers/LRBFGS.cpp`). The arrays `S`, `Y`, `RHO` always change together, so a slot
holds a triple; a slot that was never written since the arrays were allocated is `none` (an empty element:
using it is undefined). Index operations outside the arrays and `% 0` are undefined (`none`).
-/

namespace Verif.QN

open scoped RealInnerProductSpace Classical

variable {E : Type*} [NormedAddCommGroup E] [InnerProductSpace ℝ E]

/-- One stored pair: `S[i]`, `Y[i]`, `RHO[i]`. -/
structure Pair (E : Type*) where
  s : E
  y : E
  rho : ℝ

/-- The limited-memory state: `LengthSY`, `Currentlength`, `beginidx`, the arrays. -/
structure Buf (E : Type*) where
  cap : Nat
  len : Nat
  beg : Nat
  slot : Nat → Option (Pair E)

/-- The state after construction and the allocation in `Run` (`LRBFGS.cpp:5-40, 81-91`). -/
def Buf.fresh (cap : Nat) : Buf E := { cap := cap, len := 0, beg := 0, slot := fun _ => none }

/-- `LRBFGS::Run`, `LRBFGS.cpp:81-91`: the arrays are reallocated, `Currentlength` and `beginidx` keep
their values. -/
def Buf.startRun (b : Buf E) : Buf E := { b with slot := fun _ => none }

/-- Overwrite a slot. -/
def Buf.set (b : Buf E) (i : Nat) (p : Pair E) : Buf E :=
  { b with slot := fun j => if j = i then some p else b.slot j }

/-- Write a slot; out of bounds is undefined. -/
def Buf.write (b : Buf E) (i : Nat) (p : Pair E) : Option (Buf E) :=
  if i < b.cap then some (b.set i p) else none

/-- Transport the two vectors of a pair; `RHO` is not changed. -/
def Pair.move (T : E → E) (p : Pair E) : Pair E := { s := T p.s, y := T p.y, rho := p.rho }

/-- Transport the vectors of a slot in place (`VectorTransport(x1, eta2, x2, Y[i], &Y[i])` and the same for
`S[i]`). -/
def Buf.moveSlot (T : E → E) (b : Buf E) (i : Nat) : Option (Buf E) :=
  if i < b.cap then
    match b.slot i with
    | some p => some (b.set i (p.move T))
    | none => none
  else none

/-- `for (i = start; i < start + n; i++) move slot (idx i)`. -/
def Buf.moveLoop (T : E → E) (idx : Nat → Nat) (b : Buf E) (start : Nat) : Nat → Option (Buf E)
  | 0 => some b
  | n + 1 => (b.moveSlot T (idx start)).bind fun b => Buf.moveLoop T idx b (start + 1) n

/-- Lines 193-194: with `LMrestart` a full memory is emptied. -/
def Buf.prep (restart : Bool) (b : Buf E) : Buf E :=
  if restart = true ∧ b.cap ≤ b.len then { b with len := 0 } else b

/-- Lines 213: `beginidx = (++beginidx) % LengthSY`. -/
def Buf.advance (b : Buf E) : Buf E := { b with beg := (b.beg + 1) % b.cap }

/-- Lines 196-221: store a pair and transport the others. -/
def Buf.store (T : E → E) (p : Pair E) (b : Buf E) : Option (Buf E) :=
  if b.len < b.cap then
    (b.write b.len p).bind fun b1 =>
      (b1.moveLoop T (fun i => i) 0 b.len).map fun b2 => { b2 with len := b.len + 1 }
  else if 0 < b.cap then
    (b.write b.beg p).bind fun b1 =>
      b1.advance.moveLoop T (fun i => i % b.cap) b1.advance.beg (b.cap - 1)
  else some b

/-- The bookkeeping of `UpdateDataLRBFGS`, `LRBFGS.cpp:188-232`, with the outcome of the test given:
`pair = some p` when the pair is stored, `none` when it is skipped. -/
def Buf.update (restart : Bool) (T : E → E) (pair : Option (Pair E)) (b : Buf E) : Option (Buf E) :=
  match pair with
  | some p => (b.prep restart).store T p
  | none => b.moveLoop T (fun i => i) 0 b.len

/-- First loop of `HvLRBFGS`, `LRBFGS.cpp:152-157`: `i` runs down from `Currentlength - 1`. `xi` has
`Currentlength` entries but is indexed with the slot number. -/
noncomputable def Buf.loop1 (b : Buf E) : Nat → (Nat → ℝ) → E → Option ((Nat → ℝ) × E)
  | 0, xi, r => some (xi, r)
  | i + 1, xi, r =>
    if b.cap = 0 then none
    else
      let idx := (b.beg + i) % b.cap
      if idx < b.len then
        match b.slot idx with
        | some p =>
          let x := p.rho * ⟪p.s, r⟫
          b.loop1 i (fun j => if j = idx then x else xi j) (r - x • p.y)
        | none => none
      else none

/-- Second loop of `HvLRBFGS`, `LRBFGS.cpp:161-166`: `n` passes starting from `i`. -/
noncomputable def Buf.loop2 (b : Buf E) (xi : Nat → ℝ) (i : Nat) : Nat → E → Option E
  | 0, r => some r
  | n + 1, r =>
    if b.cap = 0 then none
    else
      let idx := (b.beg + i) % b.cap
      if idx < b.len then
        match b.slot idx with
        | some p =>
          let omega := p.rho * ⟪p.y, r⟫
          b.loop2 xi (i + 1) n (r + (xi idx - omega) • p.s)
        | none => none
      else none

/-- `HvLRBFGS`, `LRBFGS.cpp:145-169`. `P` is the preconditioner. The initial content of `xi` is arbitrary. -/
noncomputable def Buf.hv (b : Buf E) (P : E → E) (gamma : ℝ) (junk : Nat → ℝ) (v : E) : Option E :=
  (b.loop1 b.len junk v).bind fun r => b.loop2 r.1 0 b.len (gamma • P r.2)

/-- The decision and the stored triple of `UpdateDataLRBFGS`, `LRBFGS.cpp:177-189`. -/
noncomputable def storedPair (c : Cautious) (p : Call E) : Option (Pair E) :=
  if acceptPair c p.ngf2 p.ngf0 ⟪p.s, p.s⟫ ⟪p.s, p.y⟫ then
    some { s := p.s, y := p.y, rho := 1 / ⟪p.s, p.y⟫ }
  else none

/-- `gamma` after `UpdateDataLRBFGS` (`LRBFGS.cpp:183, 191`): `<s,y>/<y,P y>` when the pair is stored. -/
noncomputable def newGamma (c : Cautious) (P : E → E) (p : Call E) (gamma : ℝ) : ℝ :=
  if acceptPair c p.ngf2 p.ngf0 ⟪p.s, p.s⟫ ⟪p.s, p.y⟫ then ⟪p.s, p.y⟫ / ⟪p.y, P p.y⟫ else gamma

/-- State of the solver's memory in a run. -/
structure LState (E : Type*) where
  buf : Buf E
  gamma : ℝ

/-- `UpdateDataLRBFGS` (`LRBFGS.cpp:175-233`) as the combination of the modelled parts. -/
noncomputable def lrbfgsUpdate (c : Cautious) (restart : Bool) (P : E → E) (p : Call E)
    (st : LState E) : Option (LState E) :=
  (st.buf.update restart p.T (storedPair c p)).map fun b =>
    { buf := b, gamma := newGamma c P p st.gamma }

/-- The updates of a run, `LRBFGS.cpp:119-122` once per iteration. -/
noncomputable def lrbfgsRun (c : Cautious) (restart : Bool) (P : E → E) :
    List (Call E) → LState E → Option (LState E)
  | [], st => some st
  | p :: ps, st => (lrbfgsUpdate c restart P p st).bind (lrbfgsRun c restart P ps)

end Verif.QN
