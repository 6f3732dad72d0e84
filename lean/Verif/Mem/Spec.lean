import Verif.Mem.Heap

/-!
Specification of `Element` values: every object owns its own entries, assignment is an eager deep
copy, nothing is shared.  Entries the caller has not defined yet are `none` (unspecified).
-/

namespace Verif.Mem
variable {V : Type}

/-- A value: shape, number of entries, and (if the object holds data) its entries. -/
structure Val (V : Type) where
  shape : List Nat
  length : Nat
  data : Option (Nat → Option V)

/-- The last value stored at index `i` by a list of stores. -/
def lastWrite : List (Nat × V) → Nat → Option V
  | [], _ => none
  | w :: ws, i =>
    match lastWrite ws i with
    | some v => some v
    | none => if w.1 = i then some w.2 else none

/-- Entries after a list of stores. -/
def overwrite (old : Nat → Option V) (ws : List (Nat × V)) : Nat → Option V :=
  fun i => match lastWrite ws i with
    | some v => some v
    | none => old i

/-- A store of values; `none` = destroyed object. -/
abbrev Vals (V : Type) := List (Option (Val V))

def Vals.get (t : Vals V) (x : Nat) : Option (Val V) :=
  match t[x]? with
  | some (some v) => some v
  | _ => none

/-- Deep-copy semantics of one operation (`none`: refused, no such object). -/
def sstep (t : Vals V) : Op V → Option (Vals V)
  | .decl r c n => some (t ++ [some ⟨[r, c, n], r * c * n, none⟩])
  | .copyNew x => (t.get x).map fun v => t ++ [some v]
  | .assign y x => (t.get x).bind fun v => (t.get y).map fun _ => t.set y (some v)
  | .writePartial x ws => (t.get x).map fun v =>
      t.set x (some { v with data := some (overwrite (v.data.getD fun _ => none) ws) })
  | .writeEntire x ws => (t.get x).map fun v =>
      t.set x (some { v with data := some (overwrite (fun _ => none) ws) })
  | .fill x a => (t.get x).map fun v => t.set x (some { v with data := some fun _ => some a })
  | .reshape x r c n => (t.get x).map fun v => t.set x (some { v with shape := [r, c, n] })
  | .rawStore x ws => (t.get x).map fun v =>
      t.set x (some { v with data := v.data.map fun d => overwrite d ws })
  | .delete x => (t.get x).map fun _ => t.set x (some ⟨[], 0, none⟩)
  | .destroy x => (t.get x).map fun _ => t.set x none

def srun (t : Vals V) : List (Op V) → Option (Vals V)
  | [] => some t
  | op :: ops => (sstep t op).bind fun t => srun t ops

/-- Object `x` of the program shows exactly what value `v` prescribes: same length, holds data iff
`v` does, and every specified entry is there. -/
structure Shows (s : State V) (x : Nat) (v : Val V) : Prop where
  len : ∃ o, s.live x = some o ∧ o.length = v.length
  empty : v.data = none → s.contents x = none
  entries : ∀ d, v.data = some d → ∃ b, s.contents x = some b ∧ b.length = v.length ∧
    ∀ i a, i < v.length → d i = some a → b[i]? = some (some a)

/-- The program state shows the value store. -/
structure Refines (s : State V) (t : Vals V) : Prop where
  count : s.objs.length = t.length
  dead : ∀ x, t.get x = none → s.live x = none
  shows_ : ∀ x v, t.get x = some v → Shows s x v

end Verif.Mem
