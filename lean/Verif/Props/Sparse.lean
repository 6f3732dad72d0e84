import Verif.Others.Sparse
import Verif.Props.Layout
import Mathlib.Algebra.BigOperators.Ring.Finset
import Mathlib.Algebra.Star.BigOperators
import Mathlib.Algebra.BigOperators.Group.List.Lemmas
import Mathlib.Algebra.Order.Star.Basic
import Mathlib.Tactic.Ring
import Mathlib.Data.Rat.Star
import Mathlib.Data.List.Range

/-!
# Sparse matrices: handles (C49) and products (C50)
-/

set_option linter.unusedSectionVars false
set_option linter.unusedVariables false

namespace Verif.Sparse

open Verif.Elem

/-! ### C49: the table -/

section table
variable {T : Type} [CommRing T] [DecidableEq T]

/-- What a program does with `SparseMatrix` objects: construct one from triplets, or end the life of the object constructed as number `k`. -/
inductive Op (T : Type)
  | create (m n : Nat) (ts : List (T × Int × Int))
  | destroy (k : Nat)

/-- Running a history: the table and the handles returned so far; a destructor uses the handle stored in its object. -/
def run : List (Op T) → Table (Sp T) × List Int → Option (Table (Sp T) × List Int)
  | [], s => some s
  | .create m n ts :: ops, (t, hs) => match newSparse t m n ts with
    | none => none
    | some (h, t) => run ops (t, hs ++ [h])
  | .destroy k :: ops, (t, hs) => match hs[k]? with
    | none => none
    | some h => match destroySparse t h with
      | none => none
      | some t => run ops (t, hs)

/-- Specification: the objects in the order of their construction; `some` the object with its data, `none` once its life has ended. -/
def objects : List (Op T) → List (Option (Nat × Nat × List (T × Int × Int))) → List (Option (Nat × Nat × List (T × Int × Int)))
  | [], l => l
  | .create m n ts :: ops, l => objects ops (l ++ [some (m, n, ts)])
  | .destroy k :: ops, l => objects ops (l.set k none)

/-- A history in which every destructor is called on an existing object whose life has not ended. -/
def WellFormed : List (Op T) → List (Option (Nat × Nat × List (T × Int × Int))) → Prop
  | [], _ => True
  | .create m n ts :: ops, l => WellFormed ops (l ++ [some (m, n, ts)])
  | .destroy k :: ops, l => (∃ d, l[k]? = some (some d)) ∧ WellFormed ops (l.set k none)

/-- The flags of the matrices made by `SparseMatrix`. -/
structure General (A : Sp T) : Prop where
  tri : A.tri = false
  sym : A.sym = false
  her : A.her = false
  base : A.oneBase = false
  len : A.S.length = A.rows
  unfinished : A.phase ≠ .valid

/-- The part of the triplets that goes to row `i`. -/
def rowOf (n : Nat) (ts : List (T × Int × Int)) (i : Nat) : List (T × Nat) :=
  ts.filterMap fun t => if t.2.1 = (i : Int) ∧ 0 ≤ t.2.2 ∧ t.2.2 < (n : Int) then some (t.1, t.2.2.toNat) else none

theorem general_mk0 (m n : Nat) : General (Sp.mk0 T m n) := ⟨rfl, rfl, rfl, rfl, by simp [Sp.mk0], by simp [Sp.mk0]⟩

theorem getD_modify {α : Type} (l : List α) (i k : Nat) (f : α → α) (d : α) (hi : i < l.length) :
    (l.modify i f).getD k d = if k = i then f (l.getD k d) else l.getD k d := by
  rw [List.getD_eq_getElem?_getD, List.getD_eq_getElem?_getD, List.getElem?_modify]
  split
  · rename_i h; subst h
    simp [hi]
  · rename_i h
    rw [if_neg (fun e => h e.symm)]
    simp

theorem insertEntry_general {A : Sp T} (hA : General A) (v : T) (i j : Int) :
    ∃ c A', A.insertEntry v i j = some (c, A') ∧ General A' ∧ A'.rows = A.rows ∧ A'.cols = A.cols ∧
      ∀ k < A.rows, A'.S.getD k [] = A.S.getD k [] ++ rowOf A.cols [(v, i, j)] k := by
  unfold Sp.insertEntry
  have hbi : ∀ z : Int, (if A.oneBase then z - 1 else z) = z := fun z => by rw [hA.base]; rfl
  simp only [hbi]
  have hskip : (¬ (0 ≤ i ∧ i < A.rows) ∨ ¬ (0 ≤ j ∧ j < A.cols)) → ∀ k < A.rows, A.S.getD k [] = A.S.getD k [] ++ rowOf A.cols [(v, i, j)] k := by
    intro h k hk
    have : rowOf A.cols [(v, i, j)] k = [] := by
      unfold rowOf
      rw [List.filterMap_cons_none, List.filterMap_nil]
      rw [if_neg]
      rintro ⟨h1, h2, h3⟩
      simp only at h1 h2 h3
      rcases h with h | h
      · exact h ⟨by omega, by omega⟩
      · exact h ⟨h2, h3⟩
    rw [this, List.append_nil]
  by_cases h1 : ¬ 0 ≤ i
  · exact ⟨1, A, by rw [if_pos h1], hA, rfl, rfl, hskip (by omega)⟩
  rw [if_neg h1]
  by_cases h2 : ¬ i < (A.rows : Int)
  · exact ⟨1, A, by rw [if_pos h2], hA, rfl, rfl, hskip (by omega)⟩
  rw [if_neg h2]
  by_cases h3 : ¬ 0 ≤ j
  · exact ⟨1, A, by rw [if_pos h3], hA, rfl, rfl, hskip (by omega)⟩
  rw [if_neg h3]
  by_cases h4 : ¬ j < (A.cols : Int)
  · exact ⟨1, A, by rw [if_pos h4], hA, rfl, rfl, hskip (by omega)⟩
  rw [if_neg h4]
  set B : Sp T := A.open with hB
  have hBop : B.phase = .opened := by
    rw [hB, Sp.open]
    split
    · rfl
    · rename_i h
      cases e : A.phase
      · exact absurd e h
      · rfl
      · exact absurd e hA.unfinished
  have hBr : B.rows = A.rows := by rw [hB, Sp.open]; split <;> rfl
  have hBc : B.cols = A.cols := by rw [hB, Sp.open]; split <;> rfl
  have hBS : B.S = A.S := by rw [hB, Sp.open]; split <;> rfl
  have hBt : B.tri = false := by rw [hB, Sp.open]; split <;> exact hA.tri
  have hBs : B.sym = false := by rw [hB, Sp.open]; split <;> exact hA.sym
  have hBh : B.her = false := by rw [hB, Sp.open]; split <;> exact hA.her
  have hBb : B.oneBase = false := by rw [hB, Sp.open]; split <;> exact hA.base
  rw [if_pos hBop, if_neg (by rw [hBt, hBs, hBh]; simp)]
  refine ⟨_, _, rfl, ⟨hBt, hBs, hBh, hBb, ?_, by simp [hBop]⟩, hBr, hBc, ?_⟩
  · simp only [List.length_modify, hBS, hBr]; exact hA.len
  · intro k hk
    simp only [hBS]
    have hi : i.toNat < A.S.length := by rw [hA.len]; omega
    rw [getD_modify _ _ _ _ _ hi]
    by_cases hki : k = i.toNat
    · rw [if_pos hki]
      have : rowOf A.cols [(v, i, j)] k = [(v, j.toNat)] := by
        unfold rowOf
        rw [List.filterMap_cons_some, List.filterMap_nil]
        rw [if_pos ⟨by simp only; omega, by simp only; omega, by simp only; omega⟩]
      rw [this]
    · rw [if_neg hki]
      have : rowOf A.cols [(v, i, j)] k = [] := by
        unfold rowOf
        rw [List.filterMap_cons_none, List.filterMap_nil]
        rw [if_neg]
        rintro ⟨e, _, _⟩
        simp only at e
        omega
      rw [this, List.append_nil]

theorem insertEntries_general : ∀ (ts : List (T × Int × Int)) {A : Sp T}, General A →
    ∃ A', A.insertEntries ts = some A' ∧ General A' ∧ A'.rows = A.rows ∧ A'.cols = A.cols ∧ ∀ k < A.rows, A'.S.getD k [] = A.S.getD k [] ++ rowOf A.cols ts k
  | [], A, hA => ⟨A, rfl, hA, rfl, rfl, fun k _ => by simp [rowOf]⟩
  | (v, i, j) :: ts, A, hA => by
    obtain ⟨c, A', e, hA', hr, hc, hS⟩ := insertEntry_general hA v i j
    obtain ⟨A'', e', hA'', hr', hc', hS'⟩ := insertEntries_general ts hA'
    refine ⟨A'', ?_, hA'', by rw [hr', hr], by rw [hc', hc], fun k hk => ?_⟩
    · rw [Sp.insertEntries, e]; exact e'
    · rw [hS' k (by rw [hr]; exact hk), hS k hk, hc, List.append_assoc]
      congr 1
      have : (v, i, j) :: ts = [(v, i, j)] ++ ts := rfl
      conv_rhs => rw [this]
      unfold rowOf
      rw [List.filterMap_append]

/-- The matrix a `SparseMatrix` object is meant to hold. -/
def Holds (A : Sp T) (d : Nat × Nat × List (T × Int × Int)) : Prop :=
  A.phase = .valid ∧ A.tri = false ∧ A.sym = false ∧ A.her = false ∧ A.rows = d.1 ∧ A.cols = d.2.1 ∧ ∀ k < d.1, A.S.getD k [] = rowOf d.2.1 d.2.2 k

/-- Slot by slot agreement of the table with the specification. -/
def Agree : List (Option (Sp T)) → List (Option (Nat × Nat × List (T × Int × Int))) → Prop :=
  List.Forall₂ fun a d => match a, d with
    | some A, some d => Holds A d
    | none, none => True
    | _, _ => False

theorem agree_set {l : List (Option (Sp T))} {d : List (Option (Nat × Nat × List (T × Int × Int)))} (h : Agree l d) (k : Nat) : Agree (l.set k none) (d.set k none) := by
  induction h generalizing k with
  | nil => exact List.Forall₂.nil
  | cons h1 h2 ih =>
    cases k with
    | zero => exact List.Forall₂.cons trivial h2
    | succ k => exact List.Forall₂.cons h1 (ih k)

theorem agree_get {l : List (Option (Sp T))} {d : List (Option (Nat × Nat × List (T × Int × Int)))} (h : Agree l d) {k : Nat} :
    match d[k]? with
    | some (some x) => ∃ A, l[k]? = some (some A) ∧ Holds A x
    | some none => l[k]? = some none
    | none => l[k]? = none := by
  induction h generalizing k with
  | nil => simp
  | @cons a b l1 l2 h1 h2 ih =>
    cases k with
    | zero =>
      simp only [List.getElem?_cons_zero]
      cases a <;> cases b <;> simp_all
    | succ k => simpa using ih (k := k)

structure TInv (t : Table (Sp T)) (hs : List Int) (l : List (Option (Nat × Nat × List (T × Int × Int)))) : Prop where
  agree : Agree t.slots l
  active : t.active ≤ t.slots.length
  exact : t.active = t.slots.countP Option.isSome
  handles : hs = (List.range l.length).map fun (k : Nat) => (k : Int)

theorem newSparse_spec {t : Table (Sp T)} (ht : t.active ≤ t.slots.length) (m n : Nat) (ts : List (T × Int × Int)) :
    ∃ A, Holds A (m, n, ts) ∧ newSparse t m n ts = some ((t.slots.length : Int), ⟨t.slots ++ [some A], t.active + 1⟩) := by
  obtain ⟨A', e, hA', hr, hc, hS⟩ := insertEntries_general ts (general_mk0 (T := T) m n)
  refine ⟨A'.endConstruction.2, ?_, ?_⟩
  · have hv : A'.endConstruction.2 = { A' with phase := .valid } := by
      unfold Sp.endConstruction
      rw [if_pos]
      cases h : A'.phase
      · right; rfl
      · left; rfl
      · exact absurd h hA'.unfinished
    rw [hv]
    refine ⟨rfl, hA'.tri, hA'.sym, hA'.her, hr, hc, fun k hk => ?_⟩
    show A'.S.getD k [] = _
    rw [hS k hk]
    have : (Sp.mk0 T m n).S.getD k [] = [] := by
      simp only [Sp.mk0, List.getD_eq_getElem?_getD, List.getElem?_replicate]
      rw [if_pos hk]; rfl
    rw [this, List.nil_append]
    rfl
  · unfold newSparse Table.insert
    rw [if_pos ht]
    have hl : ∀ a : Sp T, (Table.lookup ⟨t.slots ++ [some a], t.active + 1⟩ (t.slots.length : Int)) = some a := by
      intro a
      unfold Table.lookup
      simp
    have hs : ∀ a b : Sp T, Table.store ⟨t.slots ++ [some a], t.active + 1⟩ (t.slots.length : Int) b = ⟨t.slots ++ [some b], t.active + 1⟩ := by
      intro a b
      unfold Table.store
      simp
    simp only [hl, e, hs]

theorem countP_set_none (l : List (Option (Sp T))) (k : Nat) {A : Sp T} (h : l[k]? = some (some A)) : (l.set k none).countP Option.isSome + 1 = l.countP Option.isSome := by
  induction l generalizing k with
  | nil => simp at h
  | cons a l ih =>
    cases k with
    | zero =>
      simp only [List.getElem?_cons_zero, Option.some.injEq] at h
      subst h
      simp
    | succ k =>
      simp only [List.getElem?_cons_succ] at h
      simp only [List.set_cons_succ, List.countP_cons]
      have := ih k h
      omega

theorem run_inv : ∀ (ops : List (Op T)) (t : Table (Sp T)) (hs : List Int) (l : List (Option (Nat × Nat × List (T × Int × Int)))), TInv t hs l → WellFormed ops l →
    ∃ t' hs', run ops (t, hs) = some (t', hs') ∧ TInv t' hs' (objects ops l) := by
  intro ops
  induction ops with
  | nil => intro t hs l hi _; exact ⟨t, hs, rfl, hi⟩
  | cons op ops ih =>
    intro t hs l hi hw
    have hlen : t.slots.length = l.length := hi.agree.length_eq
    cases op with
    | create m n ts =>
      obtain ⟨A, hA, e⟩ := newSparse_spec hi.active m n ts
      obtain ⟨t', hs', er, hi'⟩ := ih ⟨t.slots ++ [some A], t.active + 1⟩ (hs ++ [(t.slots.length : Int)]) (l ++ [some (m, n, ts)])
        ⟨List.rel_append hi.agree (List.Forall₂.cons hA List.Forall₂.nil), by simp [hi.active], by simp [hi.exact],
          by rw [hi.handles, hlen]; simp [List.range_succ]⟩ hw
      refine ⟨t', hs', ?_, hi'⟩
      simp only [run, e]
      exact er
    | destroy k =>
      obtain ⟨⟨d, hd⟩, hw⟩ := hw
      have hk : k < l.length := by
        by_contra hc
        rw [List.getElem?_eq_none (by omega)] at hd
        exact absurd hd (by simp)
      have hh : hs[k]? = some (k : Int) := by rw [hi.handles]; simp [hk]
      have hg := agree_get hi.agree (k := k)
      rw [hd] at hg
      obtain ⟨A, hA, _⟩ := hg
      have hpos : t.active ≠ 0 := by
        rw [hi.exact]
        intro h0
        have := countP_set_none t.slots k hA
        omega
      have hdes : destroySparse t (k : Int) = some ⟨t.slots.set k none, t.active - 1⟩ := by
        unfold destroySparse Table.lookup Table.remove
        simp [hA, hpos]
      obtain ⟨t', hs', er, hi'⟩ := ih ⟨t.slots.set k none, t.active - 1⟩ hs (l.set k none)
        ⟨agree_set hi.agree k, by simp only [List.length_set]; exact le_trans (Nat.sub_le _ _) hi.active, by
          have := countP_set_none t.slots k hA
          simp only [hi.exact]; omega, by rw [hi.handles]; simp⟩ hw
      refine ⟨t', hs', ?_, hi'⟩
      simp only [run, hh, hdes]
      exact er

/-- C49: for every history of constructions and destructions of `SparseMatrix` objects (each destroyed at most once), nothing undefined happens; the handles are pairwise different; the
handle of an object whose life has not ended leads to a valid general matrix holding exactly the triplets of that object that lie inside it, row by row, whatever was created or destroyed in between; the handle of a
destroyed object leads nowhere. -/
theorem C49_handles (ops : List (Op T)) (hw : WellFormed ops []) : ∃ t hs, run ops (⟨[], 0⟩, []) = some (t, hs) ∧ hs.length = (objects ops []).length ∧ hs.Nodup ∧
    ∀ (k : Nat) (h : Int), hs[k]? = some h → match (objects ops [])[k]? with
      | some (some d) => ∃ A, t.lookup h = some A ∧ Holds A d
      | _ => t.lookup h = none := by
  obtain ⟨t, hs, e, hi⟩ := run_inv ops ⟨[], 0⟩ [] [] ⟨List.Forall₂.nil, le_refl _, rfl, rfl⟩ hw
  refine ⟨t, hs, e, by rw [hi.handles]; simp, ?_, ?_⟩
  · rw [hi.handles]
    exact List.Nodup.map (fun a b h => by exact_mod_cast h) List.nodup_range
  · intro k h hk
    rw [hi.handles] at hk
    have hkl : k < (objects ops []).length := by
      by_contra hc
      rw [List.getElem?_eq_none (by simp; omega)] at hk
      exact absurd hk (by simp)
    have hke : h = (k : Int) := by simpa [hkl] using hk.symm
    subst hke
    have hg := agree_get hi.agree (k := k)
    have hlk : t.lookup (k : Int) = (t.slots[k]?).getD none := by simp [Table.lookup]
    rw [hlk]
    revert hg
    cases hd : (objects ops [])[k]? with
    | none => intro hg; simp only at hg ⊢; rw [hg]; rfl
    | some o =>
      cases o with
      | none => intro hg; simp only at hg ⊢; rw [hg]; rfl
      | some d =>
        intro hg
        obtain ⟨A, hA, hh⟩ := hg
        exact ⟨A, by rw [hA]; rfl, hh⟩

/-- C49: slots are never used again: after every history the table has one slot for every object ever constructed, so that it grows without bound in a program that keeps constructing and destroying
objects; the search for a free slot is never reached. -/
theorem C49_table_grows (ops : List (Op T)) (hw : WellFormed ops []) : ∃ t hs, run ops (⟨[], 0⟩, []) = some (t, hs) ∧
    t.slots.length = (ops.filter fun o => match o with | .create _ _ _ => true | .destroy _ => false).length ∧
    ∀ a : Sp T, (t.insert a).1 = t.slots.length ∧ (t.insert a).2.slots = t.slots ++ [some a] := by
  obtain ⟨t, hs, e, hi⟩ := run_inv ops ⟨[], 0⟩ [] [] ⟨List.Forall₂.nil, le_refl _, rfl, rfl⟩ hw
  have key : ∀ (ops : List (Op T)) l, (objects ops l).length = l.length + (ops.filter fun o => match o with | .create _ _ _ => true | .destroy _ => false).length := by
    intro ops
    induction ops with
    | nil => intro l; rfl
    | cons o ops ih =>
      intro l
      cases o with
      | create m n ts => rw [objects, ih]; simp; omega
      | destroy k => rw [objects, ih]; simp
  refine ⟨t, hs, e, ?_, ?_⟩
  · have := hi.agree.length_eq
    rw [this, key]; simp
  · intro a
    unfold Table.insert
    rw [if_pos hi.active]
    exact ⟨rfl, rfl⟩

/-- Destroying a destroyed object's handle dereferences a null pointer. `SparseMatrix` has the implicit copy constructor (SparseMatrix.h:24-53), which copies the handle, so the destructors of an object and of its
copy do this. -/
theorem C49_copy_undefined (ops : List (Op T)) (hw : WellFormed ops []) (k : Nat) (hk : (objects ops [])[k]? = some none) :
    ∃ t hs h, run ops (⟨[], 0⟩, []) = some (t, hs) ∧ hs[k]? = some h ∧ destroySparse t h = none := by
  obtain ⟨t, hs, e, hl, _, hh⟩ := C49_handles ops hw
  have hkl : k < hs.length := by
    rw [hl]
    by_contra hc
    rw [List.getElem?_eq_none (by omega)] at hk
    exact absurd hk (by simp)
  refine ⟨t, hs, hs[k], e, List.getElem?_eq_getElem hkl, ?_⟩
  have := hh k hs[k] (List.getElem?_eq_getElem hkl)
  rw [hk] at this
  unfold destroySparse
  rw [this]

end table

/-- Hypotheses of the statements above: two objects, the first destroyed before a third is made. -/
example : WellFormed (T := ℚ) [.create 2 3 [(1, 0, 2), (5, 1, 1), (4, 0, 2)], .create 1 1 [(7, 0, 0)], .destroy 0, .create 1 1 []] [] :=
  ⟨⟨_, rfl⟩, trivial⟩

/-! ### C50: products -/

section product
variable {T : Type} [CommRing T] [StarRing T] [DecidableEq T]

/-- The sum of what a list adds to index `k`. -/
def sumAt (l : List (Nat × T)) (k : Nat) : T := (l.map fun p => if p.1 = k then p.2 else 0).sum

theorem addAll_apply (l : List (Nat × T)) (y : Nat → T) (k : Nat) : addAll y l k = y k + sumAt l k := by
  induction l generalizing y with
  | nil => simp [addAll, sumAt]
  | cons p l ih =>
    obtain ⟨i, v⟩ := p
    rw [addAll, ih]
    simp only [sumAt, List.map_cons, List.sum_cons]
    by_cases h : i = k
    · subst h; simp [add_assoc]
    · rw [if_neg h, Function.update_of_ne (fun e => h e.symm)]; simp

theorem sumAt_append (l l' : List (Nat × T)) (k : Nat) : sumAt (l ++ l') k = sumAt l k + sumAt l' k := by simp [sumAt]

theorem sumAt_forN (n : Nat) (body : Nat → List (Nat × T)) (k : Nat) : sumAt (forN n body) k = ∑ i ∈ Finset.range n, sumAt (body i) k := by
  unfold forN
  induction n with
  | zero => simp [sumAt]
  | succ n ih => rw [List.range_succ, List.flatMap_append, sumAt_append, ih, Finset.sum_range_succ]; simp

theorem sumAt_shift (l : List (Nat × T)) (o k : Nat) : sumAt (l.map fun p => (o + p.1, p.2)) (o + k) = sumAt l k := by
  simp [sumAt, Function.comp_def]

theorem sumAt_zero {l : List (Nat × T)} {k : Nat} (h : ∀ p ∈ l, p.1 ≠ k) : sumAt l k = 0 := by
  unfold sumAt
  refine List.sum_eq_zero ?_
  intro x hx
  obtain ⟨p, hp, rfl⟩ := List.mem_map.mp hx
  rw [if_neg (h p hp)]

/-- Specification: the dense matrix of a list of triplets; repeated positions are summed. -/
def dense (ts : List (T × Int × Int)) (i j : Nat) : T := (ts.map fun t => if t.2.1 = (i : Int) ∧ t.2.2 = (j : Int) then t.1 else 0).sum

theorem foldl_sum {β : Type} (f : β → T) (r : List β) (a : T) : r.foldl (fun s p => s + f p) a = a + (r.map f).sum := by
  induction r generalizing a with
  | nil => simp
  | cons p r ih => rw [List.foldl_cons, ih]; simp [add_assoc]

/-- A sum over the entries of a row is a sum over columns. -/
theorem row_sum (n : Nat) (ts : List (T × Int × Int)) (i : Nat) (x : Nat → T) (g : T → T) (hg0 : g 0 = 0) (hga : ∀ a b, g (a + b) = g a + g b) :
    ((rowOf n ts i).map fun p => g p.1 * x p.2).sum = ∑ j ∈ Finset.range n, g (dense ts i j) * x j := by
  induction ts with
  | nil => simp [rowOf, dense, hg0]
  | cons t ts ih =>
    have hd : ∀ j, dense (t :: ts) i j = (if t.2.1 = (i : Int) ∧ t.2.2 = (j : Int) then t.1 else 0) + dense ts i j := by intro j; simp [dense]
    have e1 : ∑ j ∈ Finset.range n, g (dense (t :: ts) i j) * x j =
        ∑ j ∈ Finset.range n, g (if t.2.1 = (i : Int) ∧ t.2.2 = (j : Int) then t.1 else 0) * x j + ∑ j ∈ Finset.range n, g (dense ts i j) * x j := by
      rw [← Finset.sum_add_distrib]
      refine Finset.sum_congr rfl fun j _ => ?_
      rw [hd, hga, add_mul]
    rw [e1, ← ih]
    by_cases h : t.2.1 = (i : Int) ∧ 0 ≤ t.2.2 ∧ t.2.2 < (n : Int)
    · have e2 : rowOf n (t :: ts) i = (t.1, t.2.2.toNat) :: rowOf n ts i := by
        unfold rowOf
        rw [List.filterMap_cons_some]
        rw [if_pos h]
      rw [e2, List.map_cons, List.sum_cons]
      congr 1
      rw [Finset.sum_eq_single t.2.2.toNat]
      · rw [if_pos ⟨h.1, by omega⟩]
      · intro b _ hb
        rw [if_neg (by rintro ⟨_, e⟩; omega), hg0, zero_mul]
      · intro hb
        exact absurd (Finset.mem_range.mpr (by omega)) hb
    · have e2 : rowOf n (t :: ts) i = rowOf n ts i := by
        unfold rowOf
        rw [List.filterMap_cons_none]
        rw [if_neg h]
      rw [e2, Finset.sum_eq_zero, zero_add]
      intro j hj
      have hj := Finset.mem_range.mp hj
      rw [if_neg (by rintro ⟨a, b⟩; exact h ⟨a, by omega, by omega⟩), hg0, zero_mul]

theorem spDot_sum (r : List (T × Nat)) (x : Nat → T) : spDot r x 1 = (r.map fun p => p.1 * x p.2).sum := by
  unfold spDot
  rw [foldl_sum]
  simp

theorem nondiagMult_at (A : Sp T) (alpha : T) (x : Nat → T) {k : Nat} (hk : k < A.rows) : sumAt (A.nondiagMult alpha x 1 1) k = alpha * spDot (A.S.getD k []) x 1 := by
  unfold Sp.nondiagMult
  rw [sumAt_forN, Finset.sum_eq_single k]
  · simp [sumAt]
  · intro b _ hb; simp [sumAt, hb]
  · intro h; exact absurd (Finset.mem_range.mpr hk) h

theorem nondiagMult_lt (A : Sp T) (alpha : T) (x : Nat → T) : ∀ p ∈ A.nondiagMult alpha x 1 1, p.1 < A.rows := by
  intro p hp
  unfold Sp.nondiagMult at hp
  rw [mem_forN] at hp
  obtain ⟨i, hi, hp⟩ := hp
  simp only [List.mem_singleton] at hp
  rw [hp]; simpa using hi

/-- The value of a column-by-column product at an index: every column touches only its own part of the result. -/
theorem usmm_at (A : Sp T) (tr : Trans) (nrhs : Nat) (alpha : T) (b : Nat → T) (ldb ldC : Nat) (hlt : ∀ x, ∀ p ∈ A.usmv tr alpha x 1 1 0, p.1 < ldC) {r c : Nat} (hr : r < ldC) (hc : c < nrhs) :
    A.usmm tr nrhs alpha b ldb (fun _ => 0) ldC (r + c * ldC) = sumAt (A.usmv tr alpha (fun k => b (c * ldb + k)) 1 1 0) r := by
  unfold Sp.usmm
  rw [addAll_apply, zero_add, sumAt_forN]
  have hsh : ∀ x i, A.usmv tr alpha x 1 1 (i * ldC) = (A.usmv tr alpha x 1 1 0).map fun p => (i * ldC + p.1, p.2) := by
    intro x i
    unfold Sp.usmv
    split
    · rw [List.map_map]; simp [Function.comp_def]
    · rfl
  rw [Finset.sum_eq_single c]
  · rw [hsh, Nat.add_comm r, sumAt_shift]
  · intro i _ hi
    refine sumAt_zero ?_
    intro p hp e
    rw [hsh] at hp
    obtain ⟨q, hq, rfl⟩ := List.mem_map.mp hp
    have hq := hlt _ q hq
    simp only at e
    exact hi (colMajor_inj hq hr (by omega : q.1 + i * ldC = r + c * ldC)).2
  · intro h; exact absurd (Finset.mem_range.mpr hc) h

/-- C50: a sparse matrix holding a list of triplets, applied to a dense matrix with as many rows as it has columns, gives the dense product with the matrix of the sums of the triplets. -/
theorem C50_sparse_times {A : Sp T} {m n : Nat} {ts : List (T × Int × Int)} (hA : Holds A (m, n, ts)) (X : Mat T) (hX : X.s0 = n) :
    ∃ R, sparseTimes A X = some R ∧ R.s0 = m ∧ R.s1 = X.s1 ∧ ∀ i < m, ∀ k < X.s1, R.entry i k = ∑ j ∈ Finset.range n, dense ts i j * X.entry j k := by
  obtain ⟨hv, ht, hs, hh, hr, hc, hS⟩ := hA
  simp only at hr hc hS
  refine ⟨_, if_pos (by rw [hc, hX]), hr, rfl, fun i hi k hk => ?_⟩
  have hu : ∀ x, A.usmv .noTrans 1 x 1 1 0 = A.nondiagMult 1 x 1 1 := by
    intro x
    unfold Sp.usmv Sp.multVec
    rw [if_pos hv]
    simp [ht, hs]
  show A.usmm .noTrans X.s1 1 X.get X.s0 (fun _ => 0) A.rows (i + k * A.rows) = _
  rw [usmm_at A _ _ _ _ _ _ (by intro x p hp; rw [hu] at hp; exact nondiagMult_lt A 1 x p hp) (by rw [hr]; exact hi) hk, hu, nondiagMult_at _ _ _ (by rw [hr]; exact hi), one_mul, spDot_sum, hS i hi]
  refine (row_sum n ts i (fun j => X.get (k * X.s0 + j)) id rfl (fun _ _ => rfl)).trans ?_
  refine Finset.sum_congr rfl fun j _ => ?_
  simp only [id, Mat.entry]
  rw [Nat.add_comm]

theorem sumAt_axpy (a : T) (g : T → T) (r : List (T × Nat)) (k : Nat) : sumAt (r.map fun p => (1 * p.2, a * g p.1)) k = (r.map fun p => a * g p.1 * (if p.2 = k then 1 else 0)).sum := by
  unfold sumAt
  rw [List.map_map]
  congr 1
  refine List.map_congr_left fun p _ => ?_
  simp

theorem ctr_entry (junk : Nat → T) (x : Mat T) {i j : Nat} (hi : i < x.s0) (hj : j < x.s1) : (ctr junk x).entry j i = star (x.entry i j) := by
  show writeAll junk _ (j + i * x.s1) = _
  apply writeAll_of_mem
  · rw [mem_forN]; refine ⟨j, hj, ?_⟩
    rw [mem_forN]; exact ⟨i, hi, by simp [Mat.entry]⟩
  · intro y hy
    rw [mem_forN] at hy
    obtain ⟨j', hj', hy⟩ := hy
    rw [mem_forN] at hy
    obtain ⟨i', hi', hy⟩ := hy
    simp only [List.mem_singleton, Prod.mk.injEq] at hy
    obtain ⟨e1, e2⟩ := hy
    obtain ⟨rfl, rfl⟩ := colMajor_inj hj hj' e1
    exact e2

theorem rowOf_lt (n : Nat) (ts : List (T × Int × Int)) (i : Nat) : ∀ p ∈ rowOf n ts i, p.2 < n := by
  intro p hp
  unfold rowOf at hp
  obtain ⟨t, _, ht⟩ := List.mem_filterMap.mp hp
  split at ht
  · rename_i h
    obtain rfl := Option.some.inj ht
    simp only
    omega
  · exact absurd ht (by simp)

/-- The transposed products at an index. -/
theorem multT_at {A : Sp T} {m n : Nat} {ts : List (T × Int × Int)} (hr : A.rows = m) (hS : ∀ k < m, A.S.getD k [] = rowOf n ts k) (g : T → T) (hg0 : g 0 = 0) (hga : ∀ a b, g (a + b) = g a + g b)
    (x : Nat → T) {k : Nat} (hk : k < n) :
    sumAt (forN A.rows fun i => (A.S.getD i []).map fun p => (1 * p.2, 1 * x (i * 1) * g p.1)) k = ∑ i ∈ Finset.range m, x i * g (dense ts i k) := by
  rw [sumAt_forN, hr]
  refine Finset.sum_congr rfl fun i hi => ?_
  have hi := Finset.mem_range.mp hi
  rw [sumAt_axpy, hS i hi]
  have e : (rowOf n ts i).map (fun p => 1 * x (i * 1) * g p.1 * (if p.2 = k then 1 else 0)) = (rowOf n ts i).map (fun p => g p.1 * (x i * if p.2 = k then 1 else 0)) := by
    refine List.map_congr_left fun p _ => ?_
    rw [Nat.mul_one]; ring
  rw [e, row_sum n ts i (fun j => x i * if j = k then 1 else 0) g hg0 hga, Finset.sum_eq_single k]
  · simp [mul_comm]
  · intro b _ hb; simp [hb]
  · intro h; exact absurd (Finset.mem_range.mpr hk) h

theorem multT_lt {A : Sp T} {m n : Nat} {ts : List (T × Int × Int)} (hr : A.rows = m) (hS : ∀ k < m, A.S.getD k [] = rowOf n ts k) (g : T → T) (x : Nat → T) :
    ∀ p ∈ forN A.rows (fun i => (A.S.getD i []).map fun p => (1 * p.2, 1 * x (i * 1) * g p.1)), p.1 < n := by
  intro p hp
  rw [mem_forN] at hp
  obtain ⟨i, hi, hp⟩ := hp
  rw [hr] at hi
  rw [hS i hi] at hp
  obtain ⟨q, hq, rfl⟩ := List.mem_map.mp hp
  simp only [one_mul]
  exact rowOf_lt n ts i q hq

/-- C50: a dense matrix times a sparse matrix, real and complex case. -/
theorem C50_times_sparse {A : Sp T} {m n : Nat} {ts : List (T × Int × Int)} (hA : Holds A (m, n, ts)) (junk : Nat → T) (cplx : Bool) (X : Mat T) (hX : X.s1 = m) :
    ∃ R, timesSparse junk cplx X A = some R ∧ R.s0 = X.s0 ∧ R.s1 = n ∧ ∀ r < X.s0, ∀ j < n, R.entry r j = ∑ i ∈ Finset.range m, X.entry r i * dense ts i j := by
  obtain ⟨hv, ht, hs, hh, hr, hc, hS⟩ := hA
  simp only at hr hc hS
  cases cplx with
  | false =>
    refine ⟨_, if_pos (by rw [hr, hX]), rfl, hc, fun r hrr j hj => ?_⟩
    simp only [Bool.false_eq_true, if_false]
    set L := transpose junk X with hL
    have hu : ∀ x, A.usmv .trans 1 x 1 1 0 = forN A.rows fun i => (A.S.getD i []).map fun p => (1 * p.2, 1 * x (i * 1) * id p.1) := by
      intro x
      unfold Sp.usmv Sp.multVecT Sp.nondiagMultT spAxpy
      rw [if_pos hv]
      simp [ht, hs]
    have hLs : L.s1 = X.s0 := rfl
    have hLs0 : L.s0 = m := hX
    rw [show (r : Nat) = r from rfl]
    rw [(C10_transpose_entries junk (⟨A.cols, L.s1, A.usmm .trans L.s1 1 L.get L.s0 (fun _ => 0) A.cols⟩ : Mat T)).2.2 j (by simp only; rw [hc]; exact hj) r (by simp only; rw [hLs]; exact hrr)]
    show A.usmm .trans L.s1 1 L.get L.s0 (fun _ => 0) A.cols (j + r * A.cols) = _
    rw [usmm_at A _ _ _ _ _ _ (by intro x p hp; rw [hu] at hp; rw [hc]; exact multT_lt hr hS id x p hp) (by rw [hc]; exact hj) (by rw [hLs]; exact hrr), hu,
      multT_at hr hS id rfl (fun _ _ => rfl) (fun k => L.get (r * L.s0 + k)) hj]
    refine Finset.sum_congr rfl fun i hi => ?_
    have hi := Finset.mem_range.mp hi
    have := (C10_transpose_entries junk X).2.2 r hrr i (by rw [hX]; exact hi)
    rw [← this]
    simp only [id, Mat.entry]
    rw [show (transpose junk X).s0 = L.s0 from rfl, Nat.add_comm]
  | true =>
    refine ⟨_, if_pos (by rw [hr, hX]), rfl, hc, fun r hrr j hj => ?_⟩
    simp only [if_true]
    set L := ctr junk X with hL
    have hu : ∀ x, A.usmv .conjTrans 1 x 1 1 0 = forN A.rows fun i => (A.S.getD i []).map fun p => (1 * p.2, 1 * x (i * 1) * star p.1) := by
      intro x
      unfold Sp.usmv Sp.multVecCT Sp.nondiagMultCT spConjAxpy
      rw [if_pos hv]
      simp [ht, hs]
    have hLs : L.s1 = X.s0 := rfl
    rw [ctr_entry junk (⟨A.cols, L.s1, A.usmm .conjTrans L.s1 1 L.get L.s0 (fun _ => 0) A.cols⟩ : Mat T) (by simp only; rw [hc]; exact hj) (by simp only; rw [hLs]; exact hrr)]
    show star (A.usmm .conjTrans L.s1 1 L.get L.s0 (fun _ => 0) A.cols (j + r * A.cols)) = _
    rw [usmm_at A _ _ _ _ _ _ (by intro x p hp; rw [hu] at hp; rw [hc]; exact multT_lt hr hS star x p hp) (by rw [hc]; exact hj) (by rw [hLs]; exact hrr), hu,
      multT_at hr hS star (star_zero _) star_add (fun k => L.get (r * L.s0 + k)) hj, star_sum]
    refine Finset.sum_congr rfl fun i hi => ?_
    have hi := Finset.mem_range.mp hi
    have := ctr_entry junk X hrr (j := i) (by rw [hX]; exact hi)
    have e : L.get (r * L.s0 + i) = star (X.entry r i) := by
      rw [← this]; simp only [Mat.entry]; rw [Nat.add_comm]
    rw [e, star_mul', star_star, star_star]

/-- C50: when the dimensions do not fit, both products stop at the assertion. -/
theorem C50_dimension_mismatch (A : Sp T) (junk : Nat → T) (cplx : Bool) (X : Mat T) : (A.cols ≠ X.s0 → sparseTimes A X = none) ∧ (X.s1 ≠ A.rows → timesSparse junk cplx X A = none) :=
  ⟨fun h => if_neg h, fun h => if_neg h⟩

/-- C50: the constructor never reads or writes outside the matrix: every stored column index is within the matrix; triplets with an index outside are dropped without notice. -/
theorem C50_in_range {A : Sp T} {m n : Nat} {ts : List (T × Int × Int)} (hA : Holds A (m, n, ts)) :
    (∀ i < m, ∀ p ∈ A.S.getD i [], p.2 < n) ∧ ∀ t : T × Int × Int, ¬ (0 ≤ t.2.2 ∧ t.2.2 < n) → ∀ i < m, A.S.getD i [] = rowOf n (t :: ts) i := by
  obtain ⟨hv, ht, hs, hh, hr, hc, hS⟩ := hA
  simp only at hr hc hS
  refine ⟨fun i hi => ?_, fun t ht i hi => ?_⟩
  · rw [hS i hi]; exact rowOf_lt n ts i
  · rw [hS i hi]
    unfold rowOf
    rw [List.filterMap_cons_none]
    rw [if_neg (by rintro ⟨_, h⟩; exact ht h)]

end product

/-- Hypotheses of the statements above are met by every constructed matrix. -/
example : ∃ A, Holds (T := ℚ) A (2, 3, [(1, 0, 2), (5, 1, 1), (4, 0, 2)]) := (newSparse_spec (t := ⟨[], 0⟩) (le_refl _) _ _ _).imp fun _ h => h.1

/-- Repeated positions are summed. -/
example : dense (T := ℚ) [(1, 0, 2), (5, 1, 1), (4, 0, 2)] 0 2 = 5 := by simp [dense]; norm_num

/-- A diagonal entry of a matrix declared Hermitian is written into a vector that was never given a size (nist_spblas.h:674-696). -/
theorem C50_hermitian_insert_undefined (T : Type) [CommRing T] [DecidableEq T] (m n : Nat) (hm : 0 < m) (hn : 0 < n) (v : T) :
    ({ Sp.mk0 T m n with upHer := true } : Sp T).insertEntry v 0 0 = none := by
  simp [Sp.insertEntry, Sp.open, Sp.mk0, Sp.tri, Sp.sym, Sp.her, hm, hn]

/-! ### Symmetric and triangular matrices -/

section sym
variable {T : Type} [CommRing T] [StarRing T] [DecidableEq T]

/-- Specification: the entry stored off the diagonal at row `i`, column `j`. -/
def off (A : Sp T) (i j : Nat) : T := ((A.S.getD i []).map fun p => if p.2 = j then p.1 else 0).sum

/-- Specification: the matrix a symmetric `Sp` stands for; only one triangle is stored. -/
def symFull (A : Sp T) (i j : Nat) : T := off A i j + off A j i + if i = j then A.diag.getD i 0 else 0

/-- Specification: the matrix a triangular `Sp` stands for. -/
def triFull (A : Sp T) (i j : Nat) : T := off A i j + if i = j then A.diag.getD i 0 else 0

theorem list_row (g : T → T) (hg0 : g 0 = 0) (hga : ∀ a b, g (a + b) = g a + g b) (n : Nat) (x : Nat → T) (r : List (T × Nat)) (h : ∀ p ∈ r, p.2 < n) :
    (r.map fun p => g p.1 * x p.2).sum = ∑ j ∈ Finset.range n, g ((r.map fun p => if p.2 = j then p.1 else 0).sum) * x j := by
  induction r with
  | nil => simp [hg0]
  | cons p r ih =>
    simp only [List.map_cons, List.sum_cons, hga, add_mul, Finset.sum_add_distrib]
    rw [ih fun q hq => h q (List.mem_cons_of_mem _ hq)]
    congr 1
    rw [Finset.sum_eq_single p.2]
    · simp
    · intro b _ hb; rw [if_neg (fun e => hb e.symm), hg0, zero_mul]
    · intro hn; exact absurd (Finset.mem_range.mpr (h p List.mem_cons_self)) hn

theorem spConjDot_sum (r : List (T × Nat)) (x : Nat → T) : spConjDot r x 1 = (r.map fun p => star p.1 * x p.2).sum := by
  unfold spConjDot
  rw [foldl_sum]
  simp

theorem forN_single_at (n : Nat) (v : Nat → T) {k : Nat} (hk : k < n) : sumAt (forN n fun i => [(i * 1, v i)]) k = v k := by
  rw [sumAt_forN, Finset.sum_eq_single k]
  · simp [sumAt]
  · intro b _ hb; simp [sumAt, hb]
  · intro h; exact absurd (Finset.mem_range.mpr hk) h

theorem axpy_at (A : Sp T) (alpha : T) (x : Nat → T) (g : T → T) (hg0 : g 0 = 0) (hga : ∀ a b, g (a + b) = g a + g b) (k : Nat) :
    sumAt (forN A.rows fun i => (A.S.getD i []).map fun p => (1 * p.2, alpha * x (i * 1) * g p.1)) k = ∑ i ∈ Finset.range A.rows, alpha * (g (off A i k) * x i) := by
  rw [sumAt_forN]
  refine Finset.sum_congr rfl fun i _ => ?_
  rw [off]
  generalize A.S.getD i [] = r
  induction r with
  | nil => simp [sumAt, hg0]
  | cons p r ih =>
    simp only [List.map_cons, List.sum_cons, sumAt, hga, add_mul, mul_add] at ih ⊢
    rw [ih]
    congr 1
    by_cases e : p.2 = k
    · simp [e]; ring
    · simp [e, hg0]

/-- The hypotheses on a finished matrix: square, all columns in range, a diagonal of full length. -/
structure Square (A : Sp T) (m : Nat) : Prop where
  valid : A.phase = .valid
  rows : A.rows = m
  cols : ∀ i < m, ∀ p ∈ A.S.getD i [], p.2 < m
  diag : A.diag.length = m

/-- **C50 (symmetric matrices).** The product with a matrix declared symmetric is the product with the full symmetric matrix, the conjugate-transposed one with its conjugate
transpose. -/
theorem C50_symmetric {A : Sp T} {m : Nat} (hA : Square A m) (hs : A.sym = true) (alpha : T) (x : Nat → T) {k : Nat} (hk : k < m) :
    sumAt (A.usmv .noTrans alpha x 1 1 0) k = alpha * ∑ j ∈ Finset.range m, symFull A k j * x j ∧
    sumAt (A.usmv .trans alpha x 1 1 0) k = alpha * ∑ j ∈ Finset.range m, symFull A j k * x j ∧
    sumAt (A.usmv .conjTrans alpha x 1 1 0) k = alpha * ∑ j ∈ Finset.range m, star (symFull A j k) * x j := by
  obtain ⟨hv, hr, hc, hd⟩ := hA
  have hk' : k < A.rows := by rw [hr]; exact hk
  have e0 : ∀ l : List (Nat × T), l.map (fun p => (0 + p.1, p.2)) = l := fun l => by simp
  have hdot : ∀ x : Nat → T, spDot (A.S.getD k []) x 1 = ∑ j ∈ Finset.range m, off A k j * x j := by
    intro x; rw [spDot_sum]; exact list_row id rfl (fun _ _ => rfl) m x _ (hc k hk)
  have hcdot : ∀ x : Nat → T, spConjDot (A.S.getD k []) x 1 = ∑ j ∈ Finset.range m, star (off A k j) * x j := by
    intro x; rw [spConjDot_sum]; exact list_row star (star_zero _) star_add m x _ (hc k hk)
  have n1 : sumAt (A.nondiagMult alpha x 1 1) k = alpha * ∑ j ∈ Finset.range m, off A k j * x j := by
    rw [Sp.nondiagMult, forN_single_at _ (fun i => alpha * spDot (A.S.getD i []) x 1) hk', hdot]
  have n2 : sumAt (A.nondiagMultConj alpha x 1 1) k = alpha * ∑ j ∈ Finset.range m, star (off A k j) * x j := by
    rw [Sp.nondiagMultConj, forN_single_at _ (fun i => alpha * spConjDot (A.S.getD i []) x 1) hk', hcdot]
  have t1 : sumAt (A.nondiagMultT alpha x 1 1) k = alpha * ∑ j ∈ Finset.range m, off A j k * x j := by
    rw [Finset.mul_sum, ← hr]
    exact axpy_at A alpha x id rfl (fun _ _ => rfl) k
  have t2 : sumAt (A.nondiagMultCT alpha x 1 1) k = alpha * ∑ j ∈ Finset.range m, star (off A j k) * x j := by
    rw [Finset.mul_sum, ← hr]
    exact axpy_at A alpha x star (star_zero _) star_add k
  have d1 : sumAt (A.multDiag alpha x 1 1) k = alpha * (A.diag.getD k 0 * x k) := by
    rw [Sp.multDiag, forN_single_at _ (fun i => alpha * A.diag.getD i 0 * x (i * 1)) (by rw [hd]; exact hk), Nat.mul_one, mul_assoc]
  have d2 : sumAt (A.multConjDiag alpha x 1 1) k = alpha * (star (A.diag.getD k 0) * x k) := by
    rw [Sp.multConjDiag, forN_single_at _ (fun i => alpha * star (A.diag.getD i 0) * x (i * 1)) (by rw [hd]; exact hk), Nat.mul_one, mul_assoc]
  have sd : ∀ f : T → T, ∑ j ∈ Finset.range m, (if j = k then f (A.diag.getD j 0) else 0) * x j = f (A.diag.getD k 0) * x k := by
    intro f
    rw [Finset.sum_eq_single k]
    · simp
    · intro b _ hb; simp [hb]
    · intro h; exact absurd (Finset.mem_range.mpr hk) h
  have sd1 : ∑ j ∈ Finset.range m, (if k = j then A.diag.getD k 0 else 0) * x j = A.diag.getD k 0 * x k := by
    refine Eq.trans ?_ (sd id)
    refine Finset.sum_congr rfl fun j _ => ?_
    by_cases h : k = j
    · subst h; simp
    · rw [if_neg h, if_neg (fun e => h e.symm)]
  refine ⟨?_, ?_, ?_⟩
  · simp only [Sp.usmv, hv, if_true, e0, Sp.multVec, hs, Bool.or_true, if_true, sumAt_append, n1, d1, t1, symFull, add_mul, Finset.sum_add_distrib, sd1]
    ring
  · simp only [Sp.usmv, hv, if_true, e0, Sp.multVecT, hs, Bool.or_true, if_true, sumAt_append, n1, d1, t1, symFull, add_mul, Finset.sum_add_distrib]
    have sd0 : ∑ j ∈ Finset.range m, (if j = k then A.diag.getD j 0 else 0) * x j = A.diag.getD k 0 * x k := sd id
    rw [sd0]
    ring
  · simp only [Sp.usmv, hv, if_true, e0, Sp.multVecCT, hs, Bool.or_true, if_true, sumAt_append, n2, d2, t2, symFull, star_add, add_mul, Finset.sum_add_distrib]
    rw [← sd star]
    have : ∀ j, star (if j = k then A.diag.getD j 0 else 0) = if j = k then star (A.diag.getD j 0) else 0 := by intro j; split <;> simp
    simp only [this]
    ring

/-- **C50 (triangular matrices).** The same for a matrix declared triangular. -/
theorem C50_triangular {A : Sp T} {m : Nat} (hA : Square A m) (ht : A.tri = true) (hs : A.sym = false) (alpha : T) (x : Nat → T) {k : Nat} (hk : k < m) :
    sumAt (A.usmv .noTrans alpha x 1 1 0) k = alpha * ∑ j ∈ Finset.range m, triFull A k j * x j ∧
    sumAt (A.usmv .trans alpha x 1 1 0) k = alpha * ∑ j ∈ Finset.range m, triFull A j k * x j ∧
    sumAt (A.usmv .conjTrans alpha x 1 1 0) k = alpha * ∑ j ∈ Finset.range m, star (triFull A j k) * x j := by
  obtain ⟨hv, hr, hc, hd⟩ := hA
  have hk' : k < A.rows := by rw [hr]; exact hk
  have e0 : ∀ l : List (Nat × T), l.map (fun p => (0 + p.1, p.2)) = l := fun l => by simp
  have hdot : ∀ x : Nat → T, spDot (A.S.getD k []) x 1 = ∑ j ∈ Finset.range m, off A k j * x j := by
    intro x; rw [spDot_sum]; exact list_row id rfl (fun _ _ => rfl) m x _ (hc k hk)
  have n1 : sumAt (A.nondiagMult alpha x 1 1) k = alpha * ∑ j ∈ Finset.range m, off A k j * x j := by
    rw [Sp.nondiagMult, forN_single_at _ (fun i => alpha * spDot (A.S.getD i []) x 1) hk', hdot]
  have t1 : sumAt (A.nondiagMultT alpha x 1 1) k = alpha * ∑ j ∈ Finset.range m, off A j k * x j := by
    rw [Finset.mul_sum, ← hr]
    exact axpy_at A alpha x id rfl (fun _ _ => rfl) k
  have t2 : sumAt (A.nondiagMultCT alpha x 1 1) k = alpha * ∑ j ∈ Finset.range m, star (off A j k) * x j := by
    rw [Finset.mul_sum, ← hr]
    exact axpy_at A alpha x star (star_zero _) star_add k
  have d1 : sumAt (A.multDiag alpha x 1 1) k = alpha * (A.diag.getD k 0 * x k) := by
    rw [Sp.multDiag, forN_single_at _ (fun i => alpha * A.diag.getD i 0 * x (i * 1)) (by rw [hd]; exact hk), Nat.mul_one, mul_assoc]
  have d2 : sumAt (A.multConjDiag alpha x 1 1) k = alpha * (star (A.diag.getD k 0) * x k) := by
    rw [Sp.multConjDiag, forN_single_at _ (fun i => alpha * star (A.diag.getD i 0) * x (i * 1)) (by rw [hd]; exact hk), Nat.mul_one, mul_assoc]
  have sd : ∀ f : T → T, ∑ j ∈ Finset.range m, (if j = k then f (A.diag.getD j 0) else 0) * x j = f (A.diag.getD k 0) * x k := by
    intro f
    rw [Finset.sum_eq_single k]
    · simp
    · intro b _ hb; simp [hb]
    · intro h; exact absurd (Finset.mem_range.mpr hk) h
  have sd1 : ∑ j ∈ Finset.range m, (if k = j then A.diag.getD k 0 else 0) * x j = A.diag.getD k 0 * x k := by
    refine Eq.trans ?_ (sd id)
    refine Finset.sum_congr rfl fun j _ => ?_
    by_cases h : k = j
    · subst h; simp
    · rw [if_neg h, if_neg (fun e => h e.symm)]
  have ez : sumAt ([] : List (Nat × T)) k = 0 := rfl
  refine ⟨?_, ?_, ?_⟩
  · simp only [Sp.usmv, hv, if_true, e0, Sp.multVec, ht, hs, Bool.or_false, Bool.false_eq_true, if_false, sumAt_append, ez, n1, d1, triFull, add_mul, Finset.sum_add_distrib, sd1]
    ring
  · simp only [Sp.usmv, hv, if_true, e0, Sp.multVecT, ht, hs, Bool.or_false, Bool.false_eq_true, if_false, sumAt_append, ez, t1, d1, triFull, add_mul, Finset.sum_add_distrib]
    have sd0 : ∑ j ∈ Finset.range m, (if j = k then A.diag.getD j 0 else 0) * x j = A.diag.getD k 0 * x k := sd id
    rw [sd0]
    ring
  · simp only [Sp.usmv, hv, if_true, e0, Sp.multVecCT, ht, hs, Bool.or_false, Bool.false_eq_true, if_false, sumAt_append, ez, t2, d2, triFull, star_add, add_mul, Finset.sum_add_distrib]
    rw [← sd star]
    have : ∀ j, star (if j = k then A.diag.getD j 0 else 0) = if j = k then star (A.diag.getD j 0) else 0 := by intro j; split <;> simp
    simp only [this]
    ring

/-- A symmetric matrix with one entry off the diagonal. -/
example : Square (T := ℤ) ⟨2, 2, 2, .valid, false, false, false, true, false, false, false, false, [[(7, 1)], []], [3, 0]⟩ 2 :=
  ⟨rfl, rfl, by
    intro i hi p hp
    match i, hi with
    | 0, _ => simp_all
    | 1, _ => simp_all, rfl⟩

end sym

/-! ### The table in general -/

theorem firstFree_spec {α : Type} : ∀ (l : List (Option α)) (k i : Nat), firstFree l k = some i → k ≤ i ∧ l[i - k]? = some none
  | [], _, _, h => by simp [firstFree] at h
  | none :: l, k, i, h => by
    simp only [firstFree, Option.some.injEq] at h
    subst h
    simp
  | some a :: l, k, i, h => by
    simp only [firstFree] at h
    obtain ⟨h1, h2⟩ := firstFree_spec l (k + 1) i h
    refine ⟨by omega, ?_⟩
    have : i - k = (i - (k + 1)) + 1 := by omega
    rw [this, List.getElem?_cons_succ]
    exact h2

/-- **C49.** From any table, an insertion that returns a handle stores the matrix behind a handle that was not in use and leaves all other matrices, and the number of active matrices grows by one; one that fails changes nothing. -/
theorem C49_insert_any {α : Type} (t : Table α) (a : α) :
    (0 ≤ (t.insert a).1 → (t.insert a).2.lookup (t.insert a).1 = some a ∧ t.lookup (t.insert a).1 = none ∧ (∀ h b, t.lookup h = some b → (t.insert a).2.lookup h = some b) ∧
      (t.insert a).2.active = t.active + 1) ∧
    ((t.insert a).1 < 0 → (t.insert a).2 = t) := by
  have key : ∀ (h : Int) (b : α), t.lookup h = some b → 0 ≤ h ∧ t.slots[h.toNat]? = some (some b) := by
    intro h b hb
    unfold Table.lookup at hb
    split at hb
    · rename_i h0
      refine ⟨h0, ?_⟩
      cases e : t.slots[h.toNat]? with
      | none => rw [e] at hb; simp at hb
      | some o => rw [e] at hb; simp at hb; rw [hb]
    · simp at hb
  unfold Table.insert
  split
  · refine ⟨fun _ => ⟨?_, ?_, ?_, rfl⟩, fun h => by simp only at h; omega⟩
    · simp [Table.lookup]
    · simp [Table.lookup]
    · intro h b hb
      obtain ⟨h0, hb⟩ := key h b hb
      have hl : h.toNat < t.slots.length := (List.getElem?_eq_some_iff.mp hb).1
      simp only [Table.lookup, h0, if_true]
      rw [List.getElem?_append_left hl, hb]
      rfl
  · cases e : firstFree t.slots 0 with
    | none => exact ⟨fun h => by simp at h, fun _ => rfl⟩
    | some i =>
      obtain ⟨-, hi⟩ := firstFree_spec _ _ _ e
      rw [Nat.sub_zero] at hi
      have hl : i < t.slots.length := (List.getElem?_eq_some_iff.mp hi).1
      refine ⟨fun _ => ⟨?_, ?_, ?_, rfl⟩, fun h => by simp only at h; omega⟩
      · simp [Table.lookup, hl]
      · simp [Table.lookup, hi]
      · intro h b hb
        obtain ⟨h0, hb⟩ := key h b hb
        simp only [Table.lookup, h0, if_true]
        rw [List.getElem?_set_ne, hb]
        · rfl
        · rintro rfl
          rw [hi] at hb
          simp at hb

/-- A table with a free slot in the middle and a counter that is too large. -/
example : (Table.insert (α := Nat) ⟨[some 1, none, some 2], 5⟩ 9).1 = 1 := by decide

end Verif.Sparse
