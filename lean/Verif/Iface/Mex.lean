/-
The Matlab interface: conversion between elements and Matlab structures and
evaluation of callbacks (/repo/Problems/mexProblem.cpp).

Elements are modelled at the level of values (numbers, shape, attached fields); that assignments
and writes act on values is the subject of C01-C08.  Numbers have an arbitrary type `α`; a complex
number is two consecutive numbers, as in the C++ buffers and in the interleaved Matlab API the code
uses (`mxGetComplexDoubles`).
-/
import Mathlib.Data.List.Basic
import Mathlib.Tactic.TypeStar

namespace Verif.Mex

/-- Outcome of a call: normal return, `mexErrMsgTxt` (the call is aborted with a message), or
undefined behaviour (here always: a read past the end of an array). -/
inductive Out (β : Type*)
  | ok (b : β)
  | err
  | ub
  deriving DecidableEq

/-- Sequencing of outcomes. -/
def Out.bind {β γ : Type*} : Out β → (β → Out γ) → Out γ
  | .ok b, k => k b
  | .err, _ => .err
  | .ub, _ => .ub

/-- The numbers of an element with its shape.  Element.cpp:2297-2380: every constructor makes three
dimensions; for a complex element `s0` is twice the number of rows. -/
structure Leaf (α : Type*) where
  s0 : ℕ
  s1 : ℕ
  s2 : ℕ
  cplx : Bool
  data : List α
  deriving DecidableEq

/-- SmartSpace.cpp:17-19: `length` is the product of the dimensions. -/
def Leaf.len {α : Type*} (l : Leaf α) : ℕ := l.s0 * l.s1 * l.s2

/-- An element with its attached fields: the numbers, and a finite map from names.
Simplifications: fields of fields are left out (the interface never looks at them), and the
alphabetical order in which `std::map` lists the names is not kept. -/
structure Elem (α : Type*) where
  main : Leaf α
  fields : List (String × Leaf α)
  deriving DecidableEq

/-- A Matlab numeric array of class double: dimensions, complexity flag and numbers. -/
structure Mx (α : Type*) where
  dims : List ℕ
  cplx : Bool
  data : List α
  deriving DecidableEq

/-- A 1x1 Matlab structure: field names with their arrays, in order. -/
abbrev Struct (α : Type*) := List (String × Mx α)

/-- `mxCreateNumericArray` for three requested dimensions, as called in mexProblem.cpp:160-163:
Matlab drops a trailing dimension equal to one beyond the second. -/
def mxDims (a b c : ℕ) : List ℕ := if c = 1 then [a, b] else [a, b, c]

/-- mexProblem.cpp:152-176: dimensions (halved in the first place for complex elements) and a copy
of the numbers. -/
def toMx {α : Type*} (l : Leaf α) : Mx α :=
  ⟨mxDims (if l.cplx then l.s0 / 2 else l.s0) l.s1 l.s2, l.cplx, l.data⟩

/-- `mxGetM`: the first dimension. -/
def mxM {α : Type*} (a : Mx α) : ℕ := a.dims.headD 1

/-- `mxGetN`: the product of the remaining dimensions (Matlab's documentation: "if the mxArray is an
N-dimensional array, the product of dimensions 2 through N"). -/
def mxN {α : Type*} (a : Mx α) : ℕ := a.dims.tail.prod

/-- `GetFieldbyName` (mexProblem.cpp:283-294): the first field with the name, `none` for nullptr;
also used for `Fields.find` of an element (Element.cpp:2843-2852). -/
def look {β : Type*} (S : List (String × β)) (name : String) : Option β :=
  (S.find? (fun p => p.1 == name)).map Prod.snd

/-- `Element::AddToFields` (Element.cpp:2770-2798): replace the field or add it. -/
def setField {β : Type*} : List (String × β) → String → β → List (String × β)
  | [], n, v => [(n, v)]
  | (m, w) :: t, n, v => if m = n then (m, v) :: t else (m, w) :: setField t n v

/-- `ObtainMxArrayFromElement` (mexProblem.cpp:112-187): a structure with one array per attached
field and the numbers of the element under the name "main"; an error if a name has 30 bytes or
more.  A field of the user's called "main" is passed as the loop passes it: the comparison in
line 141 takes it for the numbers of the element. -/
def fromElem {α : Type*} (X : Elem α) : Out (Struct α) :=
  if ∃ p ∈ X.fields, 30 ≤ p.1.utf8ByteSize then .err
  else .ok (X.fields.map (fun p => (p.1, if p.1 = "main" then toMx X.main else toMx p.2)) ++
    [("main", toMx X.main)])

/-- mexProblem.cpp:214-233 and 251-276 (the same code): a new element of size
`mxGetM` x `mxGetN` x third dimension, filled from the array. -/
def readMx {α : Type*} (a : Mx α) : Out (Leaf α) :=
  if 3 < a.dims.length then .err
  else
    let num := if a.dims.length < 3 then 1 else a.dims.getD 2 1
    let s0 := if a.cplx then mxM a * 2 else mxM a
    let n := s0 * mxN a * num
    if a.data.length < n then .ub
    else .ok ⟨s0, mxN a, num, a.cplx, a.data.take n⟩

/-- The loop of mexProblem.cpp:209-236: every field other than "main" is attached to the element. -/
def addAll {α : Type*} (X : Elem α) : Struct α → Out (Elem α)
  | [] => .ok X
  | (n, a) :: t =>
    if n = "main" then addAll X t
    else (readMx a).bind fun l => addAll ⟨X.main, setField X.fields n l⟩ t

/-- mexProblem.cpp:191-205: the numbers under "main" are copied into the element, as many as the
element holds; writing removes the attached fields (Element.cpp:2672-2676).  Nothing happens when
there is no "main". -/
def readMain {α : Type*} (X : Elem α) (S : Struct α) : Out (Elem α) :=
  match look S "main" with
  | none => .ok X
  | some a =>
    if a.data.length < X.main.len then .ub
    else .ok ⟨{ X.main with data := a.data.take X.main.len }, []⟩

/-- `ObtainElementFromMxArray` (mexProblem.cpp:189-238). -/
def toElem {α : Type*} (X : Elem α) (S : Struct α) : Out (Elem α) :=
  (readMain X S).bind fun Y => addAll Y S

/-- `AddToElementFromMxArray` (mexProblem.cpp:240-281): fields the element does not have yet are
attached; the numbers of the element and its existing fields stay. -/
def addNew {α : Type*} (X : Elem α) : Struct α → Out (Elem α)
  | [] => .ok X
  | (n, a) :: t =>
    if n = "main" ∨ (look X.fields n).isSome then addNew X t
    else (readMx a).bind fun l => addNew ⟨X.main, setField X.fields n l⟩ t

/-- `mexProblem::f` (21-36), and the part of `EucGrad`, `EucHessianEta`, `PreConditioner` that calls
Matlab (38-110): convert the point, call the function, attach what it returned to the point.  The
result of the call and the point afterwards.  `F` is the Matlab function; extra arguments of the
call (the tangent vector) are part of `F`. -/
def call {α ρ : Type*} (F : Struct α → ρ × Struct α) (X : Elem α) : Out (ρ × Elem α) :=
  (fromElem X).bind fun S =>
    (addNew X (F S).2).bind fun Y => .ok ((F S).1, Y)

/-- What happens to a point during a run: evaluations (of the cost function, gradient, Hessian or
preconditioner, each with its Matlab function `F i`), and new numbers being written, which removes
the attached fields (Element.cpp:2672-2682). -/
inductive Op (ι α : Type*)
  | eval (i : ι)
  | write (data : List α)

/-- The results returned by the evaluations of a sequence of operations. -/
def runOps {ι α ρ : Type*} (F : ι → Struct α → ρ × Struct α) :
    Elem α → List (Op ι α) → Out (List ρ × Elem α)
  | X, [] => .ok ([], X)
  | X, .write d :: t => runOps F ⟨{ X.main with data := d }, []⟩ t
  | X, .eval i :: t =>
    (call (F i) X).bind fun r => (runOps F r.2 t).bind fun q => .ok (r.1 :: q.1, q.2)

end Verif.Mex
