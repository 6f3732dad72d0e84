/-
Model of `SmartSpace` (copy-on-write, reference-counted storage).

Source: /repo/Manifolds/SmartSpace.cpp, /repo/Manifolds/SmartSpace.h, and the part of
/repo/Manifolds/Element.h / Element.cpp that forwards to it.

Simplifications (all definitions of this file):
* allocation never fails (`NewMemory`, SmartSpace.cpp 153-162, only prints on `bad_alloc`);
* `realdp` is an arbitrary type `V`; a freshly allocated cell is `none` (indeterminate);
* `integer` is `Nat`; no overflow;
* the `size` array is private to each object (it is never shared for non-product elements) and is
  modelled by value: `[]` is the null pointer with `ls = 0` left behind by `Delete`
  (SmartSpace.cpp 303-308); otherwise it has the three entries given by the constructors of
  `Element` (Element.cpp 2297-2380 call `Initialization(3, ...)`);
* the buffer and its counter are two separate allocations, addressed by labels drawn from one
  supply; `next` is the next unused label.
-/

namespace Verif.Mem

/-- Labels of heap allocations. -/
scoped macro "Addr" : term => `(Nat)
/-- Objects are named by the order of their construction. -/
scoped macro "Name" : term => `(Nat)

/-- The data members of a `SmartSpace` (SmartSpace.h, protected members
`size, ls, length, sharedtimes, Space`). `none` is the null pointer. -/
structure Obj where
  size : List Nat
  length : Nat
  cnt : Option Addr
  space : Option Addr
deriving DecidableEq, Repr

/-- Heap plus the objects alive in the program. `objs[x]? = some none` means that object `x` has
been destroyed. -/
structure State (V : Type) where
  next : Addr
  bufs : Addr → Option (List (Option V))
  cnts : Addr → Option Nat
  objs : List (Option Obj)

/-- Outcome of an operation: a new state, a violated documented precondition on the caller's side
(using an object that does not exist, an index out of range, reading an element that holds no data,
a failing `assert` of a shape), or undefined behaviour inside the library. -/
inductive Out (α : Type) where
  | ok (a : α)
  | client
  | ub
deriving Repr

def Out.bind {α β : Type} : Out α → (α → Out β) → Out β
  | .ok a, f => f a
  | .client, _ => .client
  | .ub, _ => .ub

variable {V : Type}

/-- Pointwise update of a partial map. -/
def upd {β : Type} (f : Addr → β) (a : Addr) (b : β) : Addr → β :=
  fun a' => if a' = a then b else f a'

/-- Store the object record of name `x`. -/
def State.setObj (s : State V) (x : Name) (o : Obj) : State V :=
  { s with objs := s.objs.set x (some o) }

/-- Number of elements of a shape; `Initialization`, SmartSpace.cpp 17-19. -/
def shapeLen (l : List Nat) : Nat := l.foldr (· * ·) 1

/-- `SmartSpace::Initialization`, SmartSpace.cpp 7-22: shape only, no memory. -/
def initObj (r c n : Nat) : Obj :=
  { size := [r, c, n], length := shapeLen [r, c, n], cnt := none, space := none }

/-- `NewMemory(); sharedtimes = new integer; *sharedtimes = 1;` with the new buffer holding `data`:
SmartSpace.cpp 28-30, 35-38, 54-57 and 153-162. -/
def allocFor (s : State V) (x : Name) (o : Obj) (data : List (Option V)) : State V :=
  let a := s.next
  ({ s with next := a + 1, bufs := upd s.bufs a (some data), cnts := upd s.cnts a (some 1) }).setObj x
    { o with cnt := some a, space := some a }

/-- `SmartSpace::NewMemoryOnWrite`, SmartSpace.cpp 24-40. -/
def newMemoryOnWrite (s : State V) (x : Name) (o : Obj) : Out (State V) :=
  match o.cnt with
  | none => .ok (allocFor s x o (List.replicate o.length none))
  | some c =>
    match s.cnts c with
    | none => .ub                                   -- reads a freed counter
    | some k =>
      if k > 1 then
        .ok (allocFor { s with cnts := upd s.cnts c (some (k - 1)) } x o
              (List.replicate o.length none))
      else .ok s

/-- `copy_(&N, src, &inc, dst, &inc)`: the first `N` cells of `dst` become those of `src`. -/
def copyCells (N : Nat) (src dst : List (Option V)) : List (Option V) :=
  src.take N ++ dst.drop N

/-- `SmartSpace::CopyOnWrite`, SmartSpace.cpp 42-62. -/
def copyOnWrite (s : State V) (x : Name) (o : Obj) : Out (State V) :=
  match o.cnt with
  | none => .ok (allocFor s x o (List.replicate o.length none))
  | some c =>
    match s.cnts c with
    | none => .ub
    | some k =>
      if k > 1 then
        match o.space with
        | none => .ub                               -- `copy_` from a null pointer
        | some p =>
          match s.bufs p with
          | none => .ub                             -- `copy_` from a freed buffer
          | some src =>
            if src.length < o.length then .ub       -- reads past the end
            else
              .ok (allocFor { s with cnts := upd s.cnts c (some (k - 1)) } x o
                    (copyCells o.length src (List.replicate o.length none)))
      else .ok s

/-- `delete eta.sharedtimes; delete[] eta.Space` on live allocations; deleting a freed allocation
is undefined. Deleting the null pointer is a no-op.  SmartSpace.cpp 116-117, 131-132, 196-197. -/
def freePair (s : State V) (c : Addr) (p : Option Addr) : Out (State V) :=
  match s.cnts c with
  | none => .ub
  | some _ =>
    match p with
    | none => .ok { s with cnts := upd s.cnts c none }
    | some p =>
      match s.bufs p with
      | none => .ub
      | some _ => .ok { s with cnts := upd s.cnts c none, bufs := upd s.bufs p none }

/-- Lines 135-150 of SmartSpace.cpp: share the storage of `src` and take over its shape. -/
def shareFrom (s : State V) (src : Obj) (y : Name) : Out (State V) :=
  let o' : Obj := { size := src.size, length := src.length, cnt := src.cnt, space := src.space }
  match src.cnt with
  | none => .ok (s.setObj y o')
  | some c =>
    match s.cnts c with
    | none => .ub
    | some k => .ok (({ s with cnts := upd s.cnts c (some (k + 1)) }).setObj y o')

/-- `SmartSpace::CopyTo(eta)`, SmartSpace.cpp 86-151; `src` is `*this` (object `x`), `dst` is `eta`
(object `y`). -/
def copyTo (s : State V) (x : Name) (src : Obj) (y : Name) (dst : Obj) : Out (State V) :=
  if x = y ∨ (dst.space = src.space ∧ ¬ (dst.space = none ∧ src.space = none)) then .ok s else
  match dst.cnt with
  | none => shareFrom s src y
  | some c =>
    match s.cnts c with
    | none => .ub
    | some k =>
      if k = 1 ∧ dst.size = src.size then
        match src.space with
        | some p =>
          match s.bufs p, dst.space with
          | some from_, some q =>
            match s.bufs q with
            | some to_ =>
              if from_.length < src.length ∨ to_.length < src.length then .ub
              else .ok { s with bufs := upd s.bufs q (some (copyCells src.length from_ to_)) }
            | none => .ub
          | _, _ => .ub
        | none =>
          (freePair s c dst.space).bind fun s =>
            .ok (s.setObj y { dst with cnt := none, space := none })
      else if k > 1 then
        shareFrom { s with cnts := upd s.cnts c (some (k - 1)) } src y
      else if k = 1 then
        (freePair s c dst.space).bind fun s => shareFrom s src y
      else shareFrom s src y

/-- The storage part of the destructor, SmartSpace.cpp 187-201 and of `Delete`, 310-323. -/
def release (s : State V) (o : Obj) : Out (State V) :=
  match o.cnt with
  | none => .ok s
  | some c =>
    match s.cnts c with
    | none => .ub
    | some k =>
      let s := { s with cnts := upd s.cnts c (some (k - 1)) }
      if k - 1 = 0 ∧ o.space ≠ none then freePair s c o.space else .ok s

/-- `SmartSpace::~SmartSpace`, SmartSpace.cpp 181-202. -/
def destroy (s : State V) (x : Name) (o : Obj) : Out (State V) :=
  (release s o).bind fun s => .ok { s with objs := s.objs.set x none }

/-- `SmartSpace::Delete`, SmartSpace.cpp 303-325. -/
def delete (s : State V) (x : Name) (o : Obj) : Out (State V) :=
  (release s o).bind fun s =>
    .ok (s.setObj x { size := [], length := 0, cnt := none, space := none })

/-- Store through the raw pointer `Space` of the object (after a write accessor, or directly):
`f` describes the new contents (callers store at indices `< o.length` only). Null, freed or too
short buffer: undefined. -/
def storeRaw (s : State V) (o : Obj) (f : List (Option V) → List (Option V)) : Out (State V) :=
  match o.space with
  | none => .ub
  | some p =>
    match s.bufs p with
    | none => .ub
    | some b =>
      if b.length < o.length then .ub               -- stores past the end of the buffer
      else .ok { s with bufs := upd s.bufs p (some (f b)) }

/-- Apply a list of single-cell stores `ptr[i] = v`. -/
def writes (ws : List (Nat × V)) (b : List (Option V)) : List (Option V) :=
  ws.foldl (fun b w => b.set w.1 (some w.2)) b

/-- Operations of a program on `Element`s, as far as storage is concerned.
* `decl r c n`     : `Element x(r, c, n)`                       (Element.cpp 2313-2379)
* `copyNew x`      : `Element y(x)`                             (Element.h 179-185)
* `assign y x`     : `y = x`                                    (Element.h 187-195)
* `writePartial`   : `p = x.ObtainWritePartialData(); p[i] = v`… (SmartSpace.cpp 175-179)
* `writeEntire`    : `p = x.ObtainWriteEntireData(); p[i] = v`… (SmartSpace.cpp 169-173)
* `fill x v`       : `x.SetToZeros()` (v = 0)                   (SmartSpace.cpp 79-84)
* `reshape x r c n`: `x.Reshape(r, c, n)`                       (Element.cpp 1810-1825)
* `rawStore x ws`  : stores through `Space` without any accessor, as done by
                     `Element::HaddRankone` (Element.cpp 1611-1639) and `Element::Conj` (1946-1953)
* `delete x`       : `x.Delete()`                               (SmartSpace.cpp 303-325)
* `destroy x`      : end of lifetime                            (SmartSpace.cpp 181-202) -/
inductive Op (V : Type) where
  | decl (r c n : Nat)
  | copyNew (x : Name)
  | assign (y x : Name)
  | writePartial (x : Name) (ws : List (Nat × V))
  | writeEntire (x : Name) (ws : List (Nat × V))
  | fill (x : Name) (v : V)
  | reshape (x : Name) (r c n : Nat)
  | rawStore (x : Name) (ws : List (Nat × V))
  | delete (x : Name)
  | destroy (x : Name)

/-- Look up a live object; anything else is the caller's mistake. -/
def State.live (s : State V) (x : Name) : Option Obj :=
  match s.objs[x]? with
  | some (some o) => some o
  | _ => none

/-- After an accessor on `x` has run, store through the pointer it returned. -/
def thenStore (r : Out (State V)) (x : Name) (f : List (Option V) → List (Option V)) :
    Out (State V) :=
  r.bind fun s =>
    match s.live x with
    | none => .client
    | some o => storeRaw s o f

/-- One operation. -/
def step (s : State V) : Op V → Out (State V)
  | .decl r c n => .ok { s with objs := s.objs ++ [some (initObj r c n)] }
  | .copyNew x =>
    match s.live x with
    | none => .client
    | some o =>
      match o.size with
      | r :: c :: n :: _ =>                         -- eta.Getsize()[0..2], Element.h 181
        let y := s.objs.length
        let dst := initObj r c n
        copyTo { s with objs := s.objs ++ [some dst] } x o y dst
      | _ => .ub                                    -- reads the null `size` of a deleted element
  | .assign y x =>
    match s.live x, s.live y with
    | some src, some dst => copyTo s x src y dst
    | _, _ => .client
  | .writePartial x ws =>
    match s.live x with
    | none => .client
    | some o =>
      if ∀ w ∈ ws, w.1 < o.length then thenStore (copyOnWrite s x o) x (writes ws) else .client
  | .writeEntire x ws =>
    match s.live x with
    | none => .client
    | some o =>
      if ∀ w ∈ ws, w.1 < o.length then thenStore (newMemoryOnWrite s x o) x (writes ws) else .client
  | .fill x v =>
    match s.live x with
    | none => .client
    | some o => thenStore (newMemoryOnWrite s x o) x (fun b => b.map fun _ => some v)
  | .reshape x r c n =>
    match s.live x with
    | none => .client
    | some o =>
      if o.size = [] then .ub                       -- writes through the null `size` pointer
      else if r * c * n = o.length then .ok (s.setObj x { o with size := [r, c, n] })
      else .client                                  -- assert, Element.cpp 1814
  | .rawStore x ws =>
    match s.live x with
    | none => .client
    | some o =>
      if o.space ≠ none ∧ ∀ w ∈ ws, w.1 < o.length then storeRaw s o (writes ws) else .client
  | .delete x =>
    match s.live x with
    | none => .client
    | some o => delete s x o
  | .destroy x =>
    match s.live x with
    | none => .client
    | some o => destroy s x o

/-- A program starts with no objects and an empty heap. -/
def State.empty : State V :=
  { next := 0, bufs := fun _ => none, cnts := fun _ => none, objs := [] }

/-- Run a history of operations. -/
def run (s : State V) : List (Op V) → Out (State V)
  | [] => .ok s
  | op :: ops => (step s op).bind fun s => run s ops

/-- What a caller sees when reading object `x`: `none` if it holds no data. -/
def State.contents (s : State V) (x : Name) : Option (List (Option V)) :=
  match s.live x with
  | none => none
  | some o => o.space.bind s.bufs

end Verif.Mem
