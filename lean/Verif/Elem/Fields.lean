import Mathlib.Order.Defs.LinearOrder
import Mathlib.Logic.Function.Basic

/-!
# Attached fields

Model of the fields attached to an `Element` (`Manifolds/Element.h:562` `mutable MAP Fields`, a `std::map<std::string, Element *>`).

First part: the merge performed by `CopyTo` and `CopyFieldsTo` on trees of elements. A map is a list of pairs sorted by name. The entries of an element are an
opaque value; the transfer of entries and shape is the subject of C02 and C03.

Second part: a ghost-annotated machine that records with every attached field the entries it was attached to.
-/

namespace Verif.Fields

/-! ## Maps -/

variable {κ : Type} [LinearOrder κ]

section Map
variable {β : Type}

/-- `Fields.find(name)`. -/
def find (k : κ) : List (κ × β) → Option β
  | [] => none
  | (k', v) :: l => if k = k' then some v else find k l

/-- Insert a pair at its place, or replace the value under an existing name. -/
def put (k : κ) (v : β) : List (κ × β) → List (κ × β)
  | [] => [(k, v)]
  | (k', v') :: l => if k < k' then (k, v) :: (k', v') :: l else if k = k' then (k, v) :: l else (k', v') :: put k v l

end Map

/-- An element: entries, attached fields, and for a product the components with their length and attached fields. Components of components are not modelled. -/
inductive Elem (κ D : Type) where
  | mk (data : D) (fields : List (κ × Elem κ D)) (comps : List (Nat × List (κ × Elem κ D)))

variable {D : Type}

def Elem.data : Elem κ D → D
  | .mk d _ _ => d

def Elem.fields : Elem κ D → List (κ × Elem κ D)
  | .mk _ fs _ => fs

def Elem.comps : Elem κ D → List (Nat × List (κ × Elem κ D))
  | .mk _ _ cs => cs

/-- The element made by the first lines of the copy constructor (`Element.h:179-183`): no fields, no components. -/
def fresh (d0 : D) : Elem κ D := .mk d0 [] []

/-- One pass of the first loop of `CopyTo` / `CopyFieldsTo` (`Element.cpp:2602-2614`, `2636-2648`): an existing field is assigned to; a missing one is copied into
the local `Temp`, and `AddToFields` (lines 2785-2798) inserts a copy of `Temp`. -/
def mergeStep (cp : Elem κ D → Elem κ D → Elem κ D) (d0 : D) (acc : List (κ × Elem κ D)) (p : κ × Elem κ D) : List (κ × Elem κ D) :=
  match find p.1 acc with
  | some g => put p.1 (cp p.2 g) acc
  | none => put p.1 (cp (cp p.2 (fresh d0)) (fresh d0)) acc

/-- `this->CopyFieldsTo(eta)` (`Element.cpp:2632-2649`). -/
def mergeFields (cp : Elem κ D → Elem κ D → Elem κ D) (d0 : D) (fs gs : List (κ × Elem κ D)) : List (κ × Elem κ D) :=
  fs.foldl (mergeStep cp d0) gs

/-- The second loop of `CopyTo` (`Element.cpp:2615-2629`): only if the target has more fields, those unknown to the source are removed. -/
def prune (fs gs : List (κ × Elem κ D)) : List (κ × Elem κ D) :=
  if fs.length < gs.length then gs.filter (fun p => (find p.1 fs).isSome) else gs

/-- `eta.ResetMultiElementsParams(...)` followed by `elements[j].CopyFieldsTo(eta.GetElement(j))` (`Element.cpp:2591-2598`, `2890-3012`): a target with the same
number and lengths of components keeps them together with their fields; otherwise it gets new components without fields. -/
def copyComps (cp : Elem κ D → Elem κ D → Elem κ D) (d0 : D) (cs ds : List (Nat × List (κ × Elem κ D))) : List (Nat × List (κ × Elem κ D)) :=
  if cs.map Prod.fst = ds.map Prod.fst then List.zipWith (fun c d => (c.1, mergeFields cp d0 c.2 d.2)) cs ds
  else cs.map (fun c => (c.1, mergeFields cp d0 c.2 []))

/-- `this->CopyTo(eta)` (`Element.cpp:2587-2630`); the result is the new `eta`. The first argument bounds the depth of the recursion (depth of the tree of fields). -/
def copyTo (d0 : D) : Nat → Elem κ D → Elem κ D → Elem κ D
  | 0, _, g => g
  | n + 1, e, g =>
    .mk e.data (prune e.fields (mergeFields (copyTo d0 n) d0 e.fields g.fields)) (copyComps (copyTo d0 n) d0 e.comps g.comps)

/-! ## Ghost machine -/

variable {V : Type}

/-- Fields of one object: the entries present when the field was attached. -/
abbrev Stamps (κ V : Type) := κ → Option (Nat → V)

/-- A component: position, length, fields. -/
structure Comp (κ V : Type) where
  off : Nat
  len : Nat
  stamps : Stamps κ V

/-- An object: entries, fields, components. -/
structure Obj (κ V : Type) where
  val : Nat → V
  stamps : Stamps κ V
  comps : List (Comp κ V)

abbrev World (κ V : Type) := Nat → Obj κ V

/-- `RemoveAllFromFields` (`Element.cpp:2827-2841`): own fields and those of the components. -/
def Obj.removeAll (o : Obj κ V) : Obj κ V :=
  { o with stamps := fun _ => none, comps := o.comps.map (fun c => { c with stamps := fun _ => none }) }

/-- The calls. -/
inductive Op (κ V : Type) where
  /-- `x.AddToFields(k, ...)` of something computed from the present entries (`Element.cpp:2770-2798`). -/
  | attach (x : Nat) (k : κ)
  /-- `x.RemoveFromFields(k)` (`Element.cpp:2816-2825`). -/
  | detach (x : Nat) (k : κ)
  /-- Every mutator built on `ObtainWriteEntireData`, `ObtainWritePartialData`, `NewMemoryOnWrite`, `SetToZeros`, `RandUnform`, `RandGaussian`
  (`Element.cpp:2651-2689`; also `AlphaXaddThis`, `ScalarTimesThis`, `AlphaABaddBetaThis`, `SubmatrixAssignment`, `DiagTimesM`): removes all fields first. -/
  | write (x : Nat) (f : (Nat → V) → (Nat → V))
  /-- `Conj` (lines 1946-1953), `HaddRankone` (1611-1639), `ScaledIdOPE` (2854-2872): write without removing fields. -/
  | rawWrite (x : Nat) (f : (Nat → V) → (Nat → V))
  /-- `x.GetElement(j).AddToFields(k, ...)`. -/
  | attachComp (x j : Nat) (k : κ)
  /-- A mutator called on `x.GetElement(j)`: removes the fields of that component, writes to its slice of the buffer of `x`. -/
  | writeComp (x j : Nat) (f : (Nat → V) → (Nat → V))
  /-- `y = x`. -/
  | assign (y x : Nat)

/-- Fields of a component of the target after an assignment (`CopyFieldsTo`): those of the source, and remaining ones of the target. -/
def mergeStamps (s t : Stamps κ V) : Stamps κ V := fun k => (s k).orElse (fun _ => t k)

/-- Components of the target after an assignment. -/
def assignComps (cs ds : List (Comp κ V)) : List (Comp κ V) :=
  if cs.map (fun c => c.len) = ds.map (fun d => d.len) then List.zipWith (fun c d => { c with stamps := mergeStamps c.stamps d.stamps }) cs ds
  else cs

/-- Write to the slice of a component. -/
def sliceWrite (c : Comp κ V) (f : (Nat → V) → (Nat → V)) (v : Nat → V) : Nat → V :=
  fun i => if c.off ≤ i ∧ i < c.off + c.len then f v i else v i

/-- One call. -/
def step (w : World κ V) : Op κ V → World κ V
  | .attach x k => Function.update w x { w x with stamps := Function.update (w x).stamps k (some (w x).val) }
  | .detach x k => Function.update w x { w x with stamps := Function.update (w x).stamps k none }
  | .write x f => Function.update w x { (w x).removeAll with val := f (w x).val }
  | .rawWrite x f => Function.update w x { w x with val := f (w x).val }
  | .attachComp x j k =>
    Function.update w x { w x with comps := (w x).comps.modify j (fun c => { c with stamps := Function.update c.stamps k (some (w x).val) }) }
  | .writeComp x j f =>
    match (w x).comps[j]? with
    | none => w
    | some c => Function.update w x
        { w x with val := sliceWrite c f (w x).val, comps := (w x).comps.modify j (fun c => { c with stamps := fun _ => none }) }
  | .assign y x =>
    if x = y then w
    else Function.update w y { val := (w x).val, stamps := (w x).stamps, comps := assignComps (w x).comps (w y).comps }

/-- A history of calls. -/
def run (w : World κ V) (ops : List (Op κ V)) : World κ V := ops.foldl step w

end Verif.Fields
