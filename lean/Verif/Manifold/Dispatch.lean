import Verif.Manifold.Sphere

/-!
# Configurations of the manifolds and the functions they select

Every manifold object keeps the members `HasHHR` (apply the two reflections of the locking condition) and `IsIntrApproach` (tangent vectors by coordinates) of `Manifold`
(`Manifold.h:342-343`); some classes add a retraction, a vector transport and a metric. The member functions `VectorTransport`, `InverseVectorTransport`, `TranHInvTran` and `Beta`
branch on them. This file models the constructors, the setters and these branches.

Simplifications: the products of manifolds are treated in `Verif.Manifold.Multi`; here they occur for `Beta` only. The functions that are selected (projections, Cayley
transport, parallel translation, ...) are maps of one inner product space, i.e. the metrics at both points are the inner product of the stored vectors.
-/

namespace Verif.Dispatch

open Verif.Sphere
open scoped InnerProductSpace

/-- The classes derived from `Manifold` that are not products of user-given manifolds. -/
inductive Cls
  | stiefel | cstiefel | sphere | grassmann | spd | symFR | csymFR | fixedRankE | q2f | cq2f | sphereTx | euclidean
  deriving DecidableEq

/-- The vector transports: `Stiefel.h:39`, `CStiefel.h:32`, `SPDManifold.h:25`, `SymFixedRankQ.h:42`. `SPDVTPARA` is `para`, `SPDPARATRAN` is `parTran`. -/
inductive VT
  | para | parTran | proj | cayley
  deriving DecidableEq

/-- The retractions: `Stiefel.h:38`, `CStiefel.h:31`, `SPDManifold.h:24`; `own` for the classes with a single one. -/
inductive Retr
  | qf | polar | exp | cayley | secOrd | own
  deriving DecidableEq

/-- The metrics: `Stiefel.h:37`, `SPDManifold.h:23`, `SymFixedRankQ.h:41`; `own` for the classes with a single one. -/
inductive Met
  | euc | affine | hgz | qeuc | own
  deriving DecidableEq

/-- The members that decide which function is called. `hhr = none`: never initialised. -/
structure Cfg where
  retr : Retr
  vt : VT
  met : Met
  intr : Bool
  hhr : Option Bool
  deriving DecidableEq

/-- The constructors: `Stiefel.cpp:7-23`, `CStiefel.cpp:7-23`, `Sphere.cpp:6-9` (that of `Stiefel`), `Grassmann.cpp:6-20`, `SPDManifold.cpp:7-20`, `SymFixedRankQ.cpp:7-20`,
`CSymFixedRankQ.cpp:7-20`, `FixedRankE.cpp:7-22` (which does not mention `HasHHR`; the member has no initialiser and `Manifold` no constructor), `FixedRankQ2F.cpp:6-18` with
`MultiManifolds.cpp:21`, `SphereTx.cpp:6-28`, `Euclidean.cpp:8-103`. -/
def ctor : Cls → Cfg
  | .stiefel | .cstiefel | .sphere => ⟨.qf, .para, .euc, true, some false⟩
  | .grassmann => ⟨.own, .para, .own, true, some false⟩
  | .spd => ⟨.secOrd, .para, .affine, true, some false⟩
  | .symFR | .csymFR => ⟨.own, .para, .euc, true, some false⟩
  | .fixedRankE => ⟨.own, .para, .own, false, none⟩
  | .q2f | .cq2f => ⟨.own, .para, .own, true, some false⟩
  | .sphereTx => ⟨.exp, .parTran, .own, false, some false⟩
  | .euclidean => ⟨.own, .para, .own, false, some false⟩

/-- `ChooseParamsSet1`, ... of `Stiefel` (`Stiefel.cpp:29-72`); also inherited by `Sphere` for the fifth set. -/
def stiefelSet (c : Cfg) : Nat → Cfg
  | 1 => { c with met := .euc, retr := .qf, vt := .para, intr := true, hhr := some false }
  | 2 => { c with met := .euc, retr := .qf, vt := .proj, intr := false, hhr := some false }
  | 3 => { c with met := .euc, retr := .polar, vt := .para, intr := true, hhr := some false }
  | 4 => { c with met := .euc, retr := .polar, vt := .proj, intr := false, hhr := some false }
  | 5 => { c with met := .euc, retr := .cayley, vt := .cayley, intr := false, hhr := some false }
  | _ => c

/-- `ChooseParamsSetk`: `Stiefel.cpp:29-72`, `CStiefel.cpp:29-63`, `Sphere.cpp:17-56`, `SPDManifold.cpp:26-56`, `SymFixedRankQ.cpp:57-91`, `CSymFixedRankQ.cpp:57-79`.
A class without that set: nothing happens (there is no such member function). -/
def choose (k : Cls) (i : Nat) (c : Cfg) : Cfg :=
  match k, i with
  | .stiefel, i => stiefelSet c i
  | .cstiefel, 5 => c
  | .cstiefel, i => stiefelSet c i
  | .sphere, 1 => { c with met := .euc, retr := .qf, vt := .para, intr := true, hhr := some false }
  | .sphere, 2 => { c with met := .euc, retr := .exp, vt := .parTran, intr := false, hhr := some false }
  | .sphere, 3 => { c with met := .euc, retr := .qf, vt := .parTran, intr := false, hhr := some false }
  | .sphere, 4 => { c with met := .euc, retr := .qf, vt := .parTran, intr := false, hhr := some false }
  | .sphere, i => stiefelSet c i
  | .spd, 1 => { c with intr := true, met := .affine, retr := .secOrd, vt := .para }
  | .spd, 2 => { c with intr := true, met := .euc, retr := .secOrd, vt := .para }
  | .spd, 3 => { c with intr := false, met := .affine, retr := .exp, vt := .parTran }
  | .spd, 4 => { c with intr := false, met := .euc, retr := .exp, vt := .parTran }
  | .symFR, 1 => { c with met := .euc, vt := .para }
  | .symFR, 2 => { c with met := .hgz, vt := .para }
  | .symFR, 3 => { c with met := .qeuc, vt := .para }
  | .symFR, 4 => { c with met := .euc, vt := .proj }
  | .symFR, 5 => { c with met := .hgz, vt := .proj }
  | .symFR, 6 => { c with met := .qeuc, vt := .proj }
  | .csymFR, 1 => { c with met := .euc, vt := .para }
  | .csymFR, 2 => { c with met := .hgz, vt := .para }
  | .csymFR, 3 => { c with met := .euc, vt := .proj }
  | .csymFR, 4 => { c with met := .hgz, vt := .proj }
  | _, _ => c

/-- The branch of `SetParams` for the key "ParamSet": `Stiefel.cpp:965-997`, `CStiefel.cpp:692-719`, `Sphere.cpp:252-280` (first the loop of `Stiefel`, whose calls are virtual, then its own),
`SymFixedRankQ.cpp:22-55`, `CSymFixedRankQ.cpp:24-55` (an unknown index selects the first set). The other classes do not look at that key (`Manifold.cpp:306-316`). -/
def chooseParam (k : Cls) (i : Int) (c : Cfg) : Cfg :=
  match k with
  | .stiefel | .cstiefel | .sphere => if 1 ≤ i then choose k i.toNat c else c
  | .symFR => if 1 ≤ i ∧ i ≤ 6 then choose k i.toNat c else choose k 1 c
  | .csymFR => if 1 ≤ i ∧ i ≤ 4 then choose k i.toNat c else choose k 1 c
  | _ => c

/-- What a user can do to the configuration: `ChooseParamsSetk`, `SetHasHHR` (`Manifold.h:256`), `SetIsIntrApproach` (`Manifold.h:239`), `SetParams` with optional entries "HasHHR" and
"ParamSet". -/
inductive Act
  | choose (i : Nat)
  | hhr (b : Bool)
  | intr (b : Bool)
  | params (hhr : Option Int) (set : Option Int)

/-- One call. `SetParams` of the base class comes first (`Stiefel.cpp:967`). -/
def act (k : Cls) (c : Cfg) : Act → Cfg
  | .choose i => choose k i c
  | .hhr b => { c with hhr := some b }
  | .intr b => { c with intr := b }
  | .params h s =>
    let c := match h with
      | none => c
      | some v => { c with hhr := some (decide (v ≠ 0)) }
    match s with
    | none => c
    | some i => chooseParam k i c

/-- The configuration after a sequence of calls on a new object. -/
def after (k : Cls) (l : List Act) : Cfg := l.foldl (act k) (ctor k)

/-! ## The functions selected -/

/-- Functions that move a tangent vector from `x` to `y`. -/
inductive Way
  /-- copy of the stored numbers -/
  | copy
  /-- projection at `y` -/
  | projY
  | cayley
  | parallel
  /-- coordinates at `x`, then the vector at `y` with these coordinates -/
  | coords
  /-- vector with these coordinates at `x`, then its coordinates at `y` -/
  | across
  /-- the zero vector -/
  | zero
  /-- arrays of the wrong length are read -/
  | bad
  deriving DecidableEq

/-- `VectorTransport` with `HasHHR = false`: `Stiefel.cpp:202-220`, `CStiefel.cpp:185-200`, `Sphere.cpp:206-213`, `Manifold.cpp:173-182`, `SPDManifold.cpp:472-520`,
`SymFixedRankQ.cpp:237-254` with `920-929`, `FixedRankQ2F.cpp:331-343`, `SphereTx.cpp:129-134`. The Cayley and the parallel transports read `n p` numbers of the vector as it is stored
(`Stiefel.cpp:900-902`, `Sphere.cpp:105-112`); in coordinates it has fewer. `SPDManifold::ParallelTranslation` returns the zero matrix (C40).
Vectors of `SphereTx` in coordinates have no entries (`SphereTx.cpp:27`). -/
def way (k : Cls) (c : Cfg) : Way :=
  match k with
  | .stiefel => if c.vt = .cayley then (if c.intr then .bad else .cayley) else if c.intr then .copy else .projY
  | .sphere =>
    if c.vt = .parTran then (if c.intr then .bad else .parallel)
    else if c.vt = .cayley then (if c.intr then .bad else .cayley) else if c.intr then .copy else .projY
  | .cstiefel | .grassmann | .fixedRankE => if c.intr then .copy else .projY
  | .spd => if c.vt = .parTran then .zero else if c.intr then .copy else .coords
  | .symFR | .csymFR => if c.vt = .proj then (if c.intr then .across else .projY) else if c.intr then .copy else .projY
  | .q2f | .cq2f => if c.intr then .copy else .coords
  | .sphereTx => if c.intr then .bad else .parallel
  | .euclidean => .copy

/-- Functions that move a tangent vector back from `y` to `x`. -/
inductive Back
  | copy | projX | cayley | parallel | bad
  deriving DecidableEq

/-- `InverseVectorTransport` with `HasHHR = false`: `Stiefel.cpp:222-241`, `CStiefel.cpp:202-218`, `Sphere.cpp:215-222`, `Manifold.cpp:184-193` (also for `SPDManifold`),
`SymFixedRankQ.cpp:256-274`, `FixedRankQ2F.cpp:345-358` (whose extrinsic branch computes coordinates at `x` and goes back to `x`, i.e. the projection at `x`, see C46),
`SphereTx.cpp:136-141`. -/
def back (k : Cls) (c : Cfg) : Back :=
  match k with
  | .stiefel => if c.vt = .cayley then (if c.intr then .bad else .cayley) else if c.intr then .copy else .projX
  | .sphere =>
    if c.vt = .parTran then (if c.intr then .bad else .parallel)
    else if c.vt = .cayley then (if c.intr then .bad else .cayley) else if c.intr then .copy else .projX
  | .cstiefel | .grassmann | .fixedRankE | .spd | .symFR | .csymFR | .q2f | .cq2f => if c.intr then .copy else .projX
  | .sphereTx => if c.intr then .bad else .parallel
  | .euclidean => .copy

/-- Functions that move an operator. -/
inductive OpWay
  | copy | parallel | bad
  deriving DecidableEq

/-- `TranHInvTran` with `HasHHR = false`: `Stiefel.cpp:291-313`, `CStiefel.cpp:256-272`, `Sphere.cpp:242-249`, `Manifold.cpp:219-230`, `SymFixedRankQ.cpp:276-294`,
`FixedRankQ2F.cpp:360-372` (extrinsic: `MultiManifolds::TranHInvTran` of two Euclidean spaces). -/
def opWay (k : Cls) (c : Cfg) : OpWay :=
  match k with
  | .sphere => if c.vt = .parTran then (if c.intr then .bad else .parallel) else .copy
  | _ => .copy

/-- The classes whose `VectorTransport` does not look at `HasHHR` first: `Sphere.cpp:208`, `SPDManifold.cpp:472-482`, `SphereTx.cpp:129`. -/
def fwdIgnores (k : Cls) (c : Cfg) : Bool :=
  match k with
  | .spd | .sphereTx => true
  | .sphere => decide (c.vt = .parTran)
  | _ => false

/-- The same for `InverseVectorTransport`: `Sphere.cpp:217`, `SphereTx.cpp:136`; that of `SPDManifold` is inherited and looks at it (`Manifold.cpp:189`). -/
def backIgnores (k : Cls) (c : Cfg) : Bool :=
  match k with
  | .sphereTx => true
  | .sphere => decide (c.vt = .parTran)
  | _ => false

/-- The same for `TranHInvTran`: `Sphere.cpp:244`. -/
def opIgnores (k : Cls) (c : Cfg) : Bool :=
  match k with
  | .sphere => decide (c.vt = .parTran)
  | _ => false

/-! ## What they compute -/

/-- The data of a step from `x` to `y`: tangent spaces and the maps between them, the direction `η` and `z`, the field "betaTReta" that `DiffRetraction` attaches to it. -/
structure Geo (E : Type) [NormedAddCommGroup E] [InnerProductSpace ℝ E] where
  TX : Submodule ℝ E
  TY : Submodule ℝ E
  projX : E →ₗ[ℝ] E
  projY : E →ₗ[ℝ] E
  cay : E →ₗ[ℝ] E
  cayInv : E →ₗ[ℝ] E
  par : E →ₗ[ℝ] E
  parInv : E →ₗ[ℝ] E
  coords : E →ₗ[ℝ] E
  across : E →ₗ[ℝ] E
  η : E
  z : E

variable {E : Type} [NormedAddCommGroup E] [InnerProductSpace ℝ E]

/-- The linear map of a transport; `none`: memory outside of an array is read. -/
noncomputable def Geo.fwd (G : Geo E) : Way → Option (E →ₗ[ℝ] E)
  | .copy => some LinearMap.id
  | .projY => some G.projY
  | .cayley => some G.cay
  | .parallel => some G.par
  | .coords => some G.coords
  | .across => some G.across
  | .zero => some 0
  | .bad => none

noncomputable def Geo.bwd (G : Geo E) : Back → Option (E →ₗ[ℝ] E)
  | .copy => some LinearMap.id
  | .projX => some G.projX
  | .cayley => some G.cayInv
  | .parallel => some G.parInv
  | .bad => none

/-- `ExpTranHInvTran` is `par ∘ H ∘ parInv`, see `Verif.Sphere.tranHInvTran`. -/
noncomputable def Geo.op (G : Geo E) (H : E →ₗ[ℝ] E) : OpWay → Option (E →ₗ[ℝ] E)
  | .copy => some H
  | .parallel => some (G.par ∘ₗ H ∘ₗ G.parInv)
  | .bad => none

/-- `VectorTransport(x, η, y, ξ)`. With reflections `LCVectorTransport` (`Manifold.cpp:725-744`) is called, which calls `VectorTransport` again with `HasHHR = false`. -/
noncomputable def transport (G : Geo E) (k : Cls) (c : Cfg) (ξ : E) : Option E :=
  c.hhr.bind fun h => (G.fwd (way k c)).bind fun T =>
    if h && !fwdIgnores k c then lcTransport T G.η G.z ξ else some (T ξ)

/-- `InverseVectorTransport(x, η, y, v)`, with reflections `LCInverseVectorTransport` (`Manifold.cpp:746-764`). -/
noncomputable def inverse (G : Geo E) (k : Cls) (c : Cfg) (v : E) : Option E :=
  c.hhr.bind fun h => (G.bwd (back k c)).bind fun B =>
    if h && !backIgnores k c then (G.fwd (way k c)).bind fun T => lcInvTransport T B G.η G.z v else some (B v)

/-- `TranHInvTran(x, η, y, H)`, with reflections `LCTranHInvTran` (`Manifold.cpp:824-858`). `SymFixedRankQ` and `CSymFixedRankQ` call `LCVectorTransport` with the operator in place of the vector
instead (`SymFixedRankQ.cpp:289-290`, `CSymFixedRankQ.cpp:238-239`): arrays of different lengths are combined. -/
noncomputable def opTransport (G : Geo E) (k : Cls) (c : Cfg) (H : E →ₗ[ℝ] E) : Option (E →ₗ[ℝ] E) :=
  c.hhr.bind fun h => (G.op H (opWay k c)).bind fun K =>
    if h && !opIgnores k c then
      if k = .symFR ∨ k = .csymFR then none
      else (G.fwd (way k c)).bind fun T => lcTranHInvTran T G.η G.z K
    else some K

/-- `Beta(x, η)` as the solvers call it, through a pointer to `Manifold`; `stored` is the first number of the field "beta" of `η`. `none` for the class: a product of manifolds, whose function
`Beta(const Variable &, Vector &)` (`MultiManifolds.h:124`) has another parameter type than the virtual function of `Manifold` (`const Vector &`) and does not override it.
Overridden in `Stiefel.cpp:188-200`, `CStiefel.cpp:171-183`, `Grassmann.cpp:175-187`, `SPDManifold.cpp:326-338` (assertion that the field exists), otherwise `Manifold.cpp:157-163`. -/
def beta (k : Option Cls) (c : Cfg) (stored : Option ℝ) : Option ℝ :=
  match k with
  | some .stiefel | some .cstiefel | some .sphere | some .grassmann | some .spd =>
    c.hhr.bind fun h => if h then stored else some 1
  | _ => some 1

/-- `y` of the secant equation, `B` the value of `Beta`, `T` the vector transport along the step (`s = T η`): `LRBFGS.cpp:177-180`, `RBFGS.cpp:138-141`, `RBroydenFamily.cpp:138-141`,
`LRBFGSSub.cpp:147-150`, `RBFGSSub.cpp:68-71`. -/
noncomputable def secantY (T : E → E) (B : ℝ) (gf1 gf2 : E) : E := (1 / B) • gf2 - T gf1

end Verif.Dispatch
