import Mathlib.Logic.Function.Basic
import Verif.Elem.Array

/-!
# Product elements: layout of the buffer and sharing

`Manifolds/Element.cpp`: the constructors 2383-2486, `ResetMultiElementsParams` 2890-3012, `NewMemoryOnWrite`/`CopyOnWrite` as far as products are concerned.
-/

namespace Verif.Product

open Verif.Elem

/-! ## One level -/

/-- The variadic constructor (Element.cpp:2437-2450): `powsinterval[0] = 0; powsinterval[i + 1] = powsinterval[i] + num_i`. -/
def pows (count : Nat → Nat) : Nat → Nat
  | 0 => 0
  | i + 1 => pows count i + count i

/-- `length += types[i]->Getlength() * (powsinterval[i + 1] - powsinterval[i])` for `i < n` (Element.cpp:2393-2397, 2443-2449). -/
def totalLength (len : Nat → Nat) (p : Nat → Nat) : Nat → Nat
  | 0 => 0
  | i + 1 => totalLength len p i + len i * (p (i + 1) - p i)

/-- `for i < numoftypes, for j = powsinterval[i] .. powsinterval[i + 1] - 1: elements[j] = *(types[i])` (Element.cpp:2409-2431): the length of each component.
`junk` is the length of an element that is never assigned. -/
def compLen (junk : Nat → Nat) (len : Nat → Nat) (p : Nat → Nat) (n : Nat) : Nat → Nat :=
  writeAll junk (forN n (fun i => forN (p (i + 1) - p i) (fun d => [(p i + d, len i)])))

/-- State of the loop that hands out the slices: component offsets and the running `shift`. -/
structure Slices where
  off : Nat → Nat
  shift : Nat

/-- One pass of the inner loop (Element.cpp:2908-2919, 2949-2966, 2992-3010 with `Space != nullptr`): `elements[j].SetByParams(.., Space + shift);
shift += elements[j].Getlength()`. -/
def sliceStep (cl : Nat → Nat) (s : Slices) (j : Nat) : Slices :=
  { off := Function.update s.off j s.shift, shift := s.shift + cl j }

/-- The two nested loops. -/
def slices (junk : Nat → Nat) (cl : Nat → Nat) (p : Nat → Nat) (n : Nat) : Slices :=
  (List.range n).foldl (fun s i => (List.range (p (i + 1) - p i)).foldl (fun s d => sliceStep cl s (p i + d)) s) { off := junk, shift := 0 }

/-! ## Products of products -/

/-- An element type: an array of some length or a product of element types. -/
inductive Shape where
  | leaf : Nat → Shape
  | prod : List Shape → Shape

mutual
/-- Number of entries (`length`). -/
def Shape.length : Shape → Nat
  | .leaf n => n
  | .prod l => lengthL l
def lengthL : List Shape → Nat
  | [] => 0
  | s :: l => s.length + lengthL l
end

mutual
/-- The slices of the arrays at the leaves in order, for a product whose buffer starts at `base`: the recursive call of `ResetMultiElementsParams` on every
component (Element.cpp:2917, 2964, 3008). -/
def Shape.leaves (base : Nat) : Shape → List (Nat × Nat)
  | .leaf n => [(base, n)]
  | .prod l => leavesL base l
def leavesL (base : Nat) : List Shape → List (Nat × Nat)
  | [] => []
  | s :: l => s.leaves base ++ leavesL (base + s.length) l
end

/-- The entries of a slice. -/
def slice {V : Type} (buf : Nat → V) (p : Nat × Nat) : List V := (List.range p.2).map (fun d => buf (p.1 + d))

/-! ## Sharing -/

variable {V : Type}

/-- `N` products with the same layout; `buf x` is the buffer that `Space` of object `x` points to, `heap` the contents of the buffers, `next` a buffer never used
so far. Reference counts are the numbers of objects pointing to a buffer (proved for single arrays in `Verif.Mem`; components have counts of their own, which
are 1 (Element.cpp:2911-2915)). -/
structure World (N : Nat) (V : Type) where
  buf : Fin N → Nat
  heap : Nat → Nat → V
  next : Nat

/-- `*sharedtimes > 1`. -/
def shared {N : Nat} (w : World N V) (x : Fin N) : Bool := decide (∃ y, y ≠ x ∧ w.buf y = w.buf x)

/-- `CopyOnWrite` of a product (SmartSpace.cpp:104-134): a private copy if the buffer is shared, components re-pointed (Element.cpp:2904-2922). -/
def cow {N : Nat} (w : World N V) (x : Fin N) : World N V :=
  if shared w x then
    { buf := Function.update w.buf x w.next, heap := Function.update w.heap w.next (w.heap (w.buf x)), next := w.next + 1 }
  else w

inductive Op (N : Nat) (V : Type) where
  /-- `y = x`. -/
  | assign (y x : Fin N)
  /-- A mutator of the product that begins with `CopyOnWrite`/`ObtainWriteEntireData`. -/
  | write (x : Fin N) (f : (Nat → V) → (Nat → V))
  /-- A write through `x.GetElement(j)`, the component occupying `[off, off + len)`; the component's own count is 1, so it writes in place. -/
  | writeComp (x : Fin N) (off len : Nat) (f : (Nat → V) → (Nat → V))
  /-- `x.CopyOnWrite()` / `x.NewMemoryOnWrite()` as called by `MultiManifolds` before it touches components. -/
  | detach (x : Fin N)

/-- Changes the entries of one slice. -/
def onSlice (off len : Nat) (f : (Nat → V) → (Nat → V)) (v : Nat → V) : Nat → V := fun i => if off ≤ i ∧ i < off + len then f v i else v i

/-- Writes in place. -/
def put {N : Nat} (w : World N V) (x : Fin N) (f : (Nat → V) → (Nat → V)) : World N V :=
  { w with heap := Function.update w.heap (w.buf x) (f (w.heap (w.buf x))) }

def step {N : Nat} (w : World N V) : Op N V → World N V
  | .assign y x => { w with buf := Function.update w.buf y (w.buf x) }
  | .write x f => put (cow w x) x f
  | .writeComp x off len f => put w x (onSlice off len f)
  | .detach x => cow w x

def run {N : Nat} (w : World N V) (ops : List (Op N V)) : World N V := ops.foldl step w

/-- What object `x` shows. -/
def val {N : Nat} (w : World N V) (x : Fin N) : Nat → V := w.heap (w.buf x)

/-- Specification: objects are independent values. -/
def specStep {N : Nat} (s : Fin N → Nat → V) : Op N V → (Fin N → Nat → V)
  | .assign y x => Function.update s y (s x)
  | .write x f => Function.update s x (f (s x))
  | .writeComp x off len f => Function.update s x (onSlice off len f (s x))
  | .detach _ => s

def specRun {N : Nat} (s : Fin N → Nat → V) (ops : List (Op N V)) : Fin N → Nat → V := ops.foldl specStep s

end Verif.Product
