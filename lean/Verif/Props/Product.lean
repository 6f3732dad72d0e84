import Verif.Elem.Product
import Mathlib.Data.Fintype.Basic
import Mathlib.Tactic.Common

/-!
# C09, C61: product elements
-/

set_option linter.unusedVariables false

namespace Verif.Product

open Verif.Elem

theorem pows_mono (count : Nat → Nat) {i j : Nat} (h : i ≤ j) : pows count i ≤ pows count j := by
  induction j with
  | zero => rw [Nat.le_zero.mp h]
  | succ j ih =>
    rcases Nat.lt_or_ge i (j + 1) with h' | h'
    · exact Nat.le_trans (ih (by omega)) (Nat.le_add_right _ _)
    · have : i = j + 1 := by omega
      rw [this]

/-- Every component index belongs to one type. -/
theorem pows_locate (count : Nat → Nat) (n j : Nat) (h : j < pows count n) : ∃ i < n, ∃ d < count i, j = pows count i + d := by
  induction n with
  | zero => simp [pows] at h
  | succ n ih =>
    by_cases h' : j < pows count n
    · obtain ⟨i, hi, d, hd, e⟩ := ih h'
      exact ⟨i, by omega, d, hd, e⟩
    · exact ⟨n, by omega, j - pows count n, by rw [pows] at h; omega, by omega⟩

theorem pows_unique (count : Nat → Nat) {i i' d d' : Nat} (h : d < count i) (h' : d' < count i') (e : pows count i + d = pows count i' + d') : i = i' ∧ d = d' := by
  rcases Nat.lt_trichotomy i i' with hl | rfl | hl
  · have := pows_mono count (Nat.succ_le_of_lt hl)
    simp only [Nat.succ_eq_add_one, pows] at this
    omega
  · exact ⟨rfl, by omega⟩
  · have := pows_mono count (Nat.succ_le_of_lt hl)
    simp only [Nat.succ_eq_add_one, pows] at this
    omega

/-- Component `powsinterval[i] + d` has the length of type `i`. -/
theorem compLen_eq (junk len count : Nat → Nat) (n i d : Nat) (hi : i < n) (hd : d < count i) :
    compLen junk len (pows count) n (pows count i + d) = len i := by
  unfold compLen
  have hc : ∀ i, pows count (i + 1) - pows count i = count i := fun i => by rw [pows]; omega
  apply writeAll_of_mem
  · rw [mem_forN]
    refine ⟨i, hi, ?_⟩
    rw [mem_forN]
    exact ⟨d, by rw [hc]; exact hd, by simp⟩
  · intro y hy
    rw [mem_forN] at hy
    obtain ⟨i', hi', hy⟩ := hy
    rw [mem_forN] at hy
    obtain ⟨d', hd', hy⟩ := hy
    rw [hc] at hd'
    simp only [List.mem_singleton, Prod.mk.injEq] at hy
    obtain ⟨e1, e2⟩ := hy
    have := (pows_unique count hd hd' e1).1
    rw [e2, this]

/-- Sum of the lengths of the components before `j`. -/
def before (cl : Nat → Nat) : Nat → Nat
  | 0 => 0
  | j + 1 => before cl j + cl j

theorem slices_inner (cl : Nat → Nat) (a m : Nat) (s : Slices) (hs : s.shift = before cl a) (ho : ∀ j < a, s.off j = before cl j) :
    let r := (List.range m).foldl (fun s d => sliceStep cl s (a + d)) s
    r.shift = before cl (a + m) ∧ ∀ j < a + m, r.off j = before cl j := by
  induction m with
  | zero => exact ⟨hs, ho⟩
  | succ m ih =>
    obtain ⟨h1, h2⟩ := ih
    rw [List.range_succ, List.foldl_append]
    refine ⟨?_, ?_⟩
    · show _ + cl (a + m) = before cl (a + m) + cl (a + m)
      rw [h1]
    · intro j hj
      show Function.update _ (a + m) _ j = _
      by_cases e : j = a + m
      · subst e; rw [Function.update_self]; exact h1
      · rw [Function.update_of_ne e]; exact h2 j (by omega)

theorem slices_outer (junk cl count : Nat → Nat) (n : Nat) :
    (slices junk cl (pows count) n).shift = before cl (pows count n) ∧ ∀ j < pows count n, (slices junk cl (pows count) n).off j = before cl j := by
  induction n with
  | zero => exact ⟨rfl, fun j hj => by simp [pows] at hj⟩
  | succ n ih =>
    unfold slices at ih ⊢
    rw [List.range_succ, List.foldl_append]
    have hc : pows count (n + 1) - pows count n = count n := by rw [pows]; omega
    simp only [List.foldl_cons, List.foldl_nil, hc]
    exact slices_inner cl (pows count n) (count n) _ ih.1 ih.2

theorem before_mono (cl : Nat → Nat) {i j : Nat} (h : i ≤ j) : before cl i ≤ before cl j := by
  induction j with
  | zero => rw [Nat.le_zero.mp h]
  | succ j ih =>
    rcases Nat.lt_or_ge i (j + 1) with h' | h'
    · exact Nat.le_trans (ih (by omega)) (Nat.le_add_right _ _)
    · have : i = j + 1 := by omega
      rw [this]

theorem totalLength_eq (junk len count : Nat → Nat) (n m : Nat) (hm : m ≤ n) :
    totalLength len (pows count) m = before (compLen junk len (pows count) n) (pows count m) := by
  induction m with
  | zero => rfl
  | succ m ih =>
    have hc : pows count (m + 1) - pows count m = count m := by rw [pows]; omega
    rw [totalLength, ih (by omega), hc, pows]
    have : ∀ d ≤ count m, before (compLen junk len (pows count) n) (pows count m + d) = before (compLen junk len (pows count) n) (pows count m) + len m * d := by
      intro d
      induction d with
      | zero => intro _; simp
      | succ d ihd =>
        intro hd
        rw [← Nat.add_assoc, before, ihd (by omega), compLen_eq junk len count n m d (by omega) (by omega), Nat.mul_succ, Nat.add_assoc]
    rw [this _ (Nat.le_refl _)]

/-- **C09.** For any numbers of types, powers and lengths: the slice of component `j` ends where the slice of component `j + 1` begins, the first begins at 0 and the last
ends at the length of the product, each has the length of its type. `junk`, `junk'` stand for the uninitialised contents of new arrays. -/
theorem C09_slices_consecutive (junk junk' len count : Nat → Nat) (n : Nat) :
    let cl := compLen junk len (pows count) n
    let off := (slices junk' cl (pows count) n).off
    let total := totalLength len (pows count) n
    let num := pows count n
    (∀ i < n, ∀ d < count i, cl (pows count i + d) = len i) ∧
    (0 < num → off 0 = 0) ∧ (∀ j, j + 1 < num → off (j + 1) = off j + cl j) ∧ (∀ j, j + 1 = num → off j + cl j = total) ∧ (num = 0 → total = 0) := by
  intro cl off total num
  have ho := (slices_outer junk' cl count n).2
  have ht : total = before cl num := totalLength_eq junk len count n n (Nat.le_refl _)
  refine ⟨fun i hi d hd => compLen_eq junk len count n i d hi hd, fun h => ho 0 h, fun j hj => ?_, fun j hj => ?_, fun h => by rw [ht, h]; rfl⟩
  · show (slices junk' cl (pows count) n).off (j + 1) = (slices junk' cl (pows count) n).off j + cl j
    rw [ho (j + 1) hj, ho j (by omega)]; rfl
  · rw [ht, ← hj]
    show (slices junk' cl (pows count) n).off j + cl j = _
    rw [ho j (by omega)]; rfl

/-- **C09.** Distinct components have disjoint slices, all inside the buffer, and every entry of the buffer belongs to a component. -/
theorem C09_slices_partition (junk junk' len count : Nat → Nat) (n : Nat) :
    let cl := compLen junk len (pows count) n
    let off := (slices junk' cl (pows count) n).off
    let total := totalLength len (pows count) n
    let num := pows count n
    (∀ j < num, off j + cl j ≤ total) ∧ (∀ j < num, ∀ k < num, j ≠ k → ∀ e, off j ≤ e → e < off j + cl j → ¬ (off k ≤ e ∧ e < off k + cl k)) ∧
    (∀ e < total, ∃ j < num, off j ≤ e ∧ e < off j + cl j) := by
  intro cl off total num
  have ho : ∀ j < num, off j = before cl j := (slices_outer junk' cl count n).2
  have ht : total = before cl num := totalLength_eq junk len count n n (Nat.le_refl _)
  have hstep : ∀ j, before cl (j + 1) = before cl j + cl j := fun _ => rfl
  refine ⟨fun j hj => ?_, fun j hj k hk hne e h1 h2 => ?_, fun e he => ?_⟩
  · rw [ho j hj, ht, ← hstep]
    exact before_mono cl hj
  · rintro ⟨h3, h4⟩
    rw [ho j hj] at h1 h2
    rw [ho k hk] at h3 h4
    rcases Nat.lt_or_gt_of_ne hne with h | h
    · have := before_mono cl (Nat.succ_le_of_lt h)
      have := hstep j
      simp only [Nat.succ_eq_add_one] at *
      omega
    · have := before_mono cl (Nat.succ_le_of_lt h)
      have := hstep k
      simp only [Nat.succ_eq_add_one] at *
      omega
  · rw [ht] at he
    have : ∀ m, m ≤ num → e < before cl m → ∃ j < num, off j ≤ e ∧ e < off j + cl j := by
      intro m
      induction m with
      | zero => intro _ h; simp [before] at h
      | succ m ih =>
        intro hm h
        by_cases h' : e < before cl m
        · exact ih (by omega) h'
        · exact ⟨m, by omega, by rw [ho m (by omega)]; omega, by rw [ho m (by omega), ← hstep]; exact h⟩
    exact this num (Nat.le_refl _) he

/-- Two types, lengths 6 and 2, powers 2 and 3: offsets 0, 6, 12, 14, 16, total 18. -/
example : (List.range 5).map (slices (fun _ => 99) (compLen (fun _ => 99) (fun i => if i = 0 then 6 else 2) (pows (fun i => if i = 0 then 2 else 3)) 2)
    (pows (fun i => if i = 0 then 2 else 3)) 2).off = [0, 6, 12, 14, 16] ∧
    totalLength (fun i => if i = 0 then 6 else 2) (pows (fun i => if i = 0 then 2 else 3)) 2 = 18 := by decide

mutual
theorem leaves_slice {V : Type} (buf : Nat → V) : ∀ (s : Shape) (base : Nat), (s.leaves base).flatMap (slice buf) = slice buf (base, s.length)
  | .leaf n, base => by simp [Shape.leaves, Shape.length]
  | .prod l, base => by
    rw [Shape.leaves, Shape.length]
    exact leavesL_slice buf l base
theorem leavesL_slice {V : Type} (buf : Nat → V) : ∀ (l : List Shape) (base : Nat), (leavesL base l).flatMap (slice buf) = slice buf (base, lengthL l)
  | [], base => by simp [leavesL, lengthL, slice]
  | s :: l, base => by
    rw [leavesL, List.flatMap_append, leaves_slice buf s base, leavesL_slice buf l (base + s.length), lengthL]
    simp only [slice]
    rw [List.range_add, List.map_append, List.map_map]
    congr 1
    apply List.map_congr_left
    intro d _
    simp [Nat.add_assoc]
end

/-- **C09.** For products of products, however deeply nested: reading the arrays at the leaves in order returns the buffer, entry by entry. -/
theorem C09_nested_read_in_order {V : Type} (buf : Nat → V) (s : Shape) : (s.leaves 0).flatMap (slice buf) = (List.range s.length).map buf := by
  rw [leaves_slice]
  simp [slice]

example : (Shape.prod [.leaf 2, .prod [.leaf 3, .leaf 1], .leaf 4]).leaves 0 = [(0, 2), (2, 3), (5, 1), (6, 4)] := by
  simp [Shape.leaves, leavesL, Shape.length, lengthL]

/-- Writing one component changes exactly its slice of the product. -/
theorem C09_component_write_local {N : Nat} {V : Type} (w : World N V) (x : Fin N) (off len : Nat) (f : (Nat → V) → (Nat → V)) :
    let v := val w x
    let v' := val (step w (.writeComp x off len f)) x
    (∀ e, off ≤ e → e < off + len → v' e = f v e) ∧ ∀ e, ¬ (off ≤ e ∧ e < off + len) → v' e = v e := by
  simp only [val, step, put, Function.update_self, onSlice]
  exact ⟨fun e h1 h2 => if_pos ⟨h1, h2⟩, fun e h => if_neg h⟩

/-! ## C61: sharing -/

variable {N : Nat} {V : Type}

/-- Buffers in use are older than `next`. -/
def Inv (w : World N V) : Prop := ∀ x, w.buf x < w.next

theorem inv_step {w : World N V} (h : Inv w) (op : Op N V) : Inv (step w op) := by
  have hcow : ∀ x, Inv (cow w x) := by
    intro x
    unfold cow
    split
    · intro y
      show Function.update w.buf x w.next y < w.next + 1
      by_cases e : y = x
      · subst e; rw [Function.update_self]; omega
      · rw [Function.update_of_ne e]; have := h y; omega
    · exact h
  cases op with
  | assign y x =>
    intro z
    show Function.update w.buf y (w.buf x) z < w.next
    by_cases e : z = y
    · subst e; rw [Function.update_self]; exact h x
    · rw [Function.update_of_ne e]; exact h z
  | write x f => exact hcow x
  | writeComp x off len f => exact h
  | detach x => exact hcow x

theorem cow_val {w : World N V} (h : Inv w) (x : Fin N) : val (cow w x) = val w := by
  unfold cow
  split
  · funext y
    show Function.update w.heap w.next _ (Function.update w.buf x w.next y) = _
    by_cases e : y = x
    · subst e; rw [Function.update_self, Function.update_self]; rfl
    · rw [Function.update_of_ne e, Function.update_of_ne (Nat.ne_of_lt (h y))]; rfl
  · rfl

theorem cow_unshared {w : World N V} (h : Inv w) (x : Fin N) : shared (cow w x) x = false := by
  by_cases hs : shared w x = true
  · rw [cow, if_pos hs]
    unfold shared
    simp only [decide_eq_false_iff_not, not_exists, not_and]
    intro y hy
    rw [Function.update_self, Function.update_of_ne hy]
    exact Nat.ne_of_lt (h y)
  · rw [cow, if_neg hs]
    exact Bool.not_eq_true _ ▸ hs

theorem put_val {w : World N V} {x : Fin N} (hs : shared w x = false) (f : (Nat → V) → (Nat → V)) : val (put w x f) = Function.update (val w) x (f (val w x)) := by
  unfold shared at hs
  simp only [decide_eq_false_iff_not, not_exists, not_and] at hs
  funext y
  show Function.update w.heap (w.buf x) _ (w.buf y) = _
  by_cases e : y = x
  · subst e; rw [Function.update_self, Function.update_self]; rfl
  · rw [Function.update_of_ne (hs y e), Function.update_of_ne e]; rfl

/-- Components are written only while the product's buffer is not shared — guaranteed when the call follows `CopyOnWrite`/`NewMemoryOnWrite` on the product. -/
def SafeHist : World N V → List (Op N V) → Prop
  | _, [] => True
  | w, op :: ops => (match op with
    | .writeComp x _ _ _ => shared w x = false
    | _ => True) ∧ SafeHist (step w op) ops

/-- **C61.** In every history in which components are written only when the product does not share its buffer, products behave as independent values. -/
theorem C61_products_are_values : ∀ (ops : List (Op N V)) (w : World N V), Inv w → SafeHist w ops → val (run w ops) = specRun (val w) ops := by
  intro ops
  induction ops with
  | nil => intro w _ _; rfl
  | cons op ops ih =>
    intro w hw hs
    have hv : val (step w op) = specStep (val w) op := by
      cases op with
      | assign y x =>
        funext z
        show w.heap (Function.update w.buf y (w.buf x) z) = Function.update (val w) y (val w x) z
        by_cases e : z = y
        · subst e; rw [Function.update_self, Function.update_self]; rfl
        · rw [Function.update_of_ne e, Function.update_of_ne e]; rfl
      | write x f =>
        show val (put (cow w x) x f) = _
        rw [put_val (cow_unshared hw x), cow_val hw]; rfl
      | writeComp x off len f => exact put_val hs.1 _
      | detach x => exact cow_val hw x
    have := ih (step w op) (inv_step hw op) hs.2
    rw [hv] at this
    exact this

/-- **C61.** The pattern used by `MultiManifolds` — `CopyOnWrite` on the product, then write components — is always safe, whatever was shared before. -/
theorem C61_detach_then_write_component (w : World N V) (hw : Inv w) (x : Fin N) (off len : Nat) (f : (Nat → V) → (Nat → V)) :
    val (run w [.detach x, .writeComp x off len f]) = Function.update (val w) x (onSlice off len f (val w x)) := by
  have := C61_products_are_values [.detach x, .writeComp x off len f] w hw ⟨trivial, cow_unshared hw x, trivial⟩
  rw [this]; rfl

/-- **C61 (finding).** Without it a write through `GetElement` of a product also changes every copy that shares the buffer: after `y = x`, writing a component of `x`
writes the same slice of `y`. -/
theorem C61_component_write_reaches_copies (w : World N V) (x y : Fin N) (off len : Nat) (f : (Nat → V) → (Nat → V)) :
    val (run w [.assign y x, .writeComp x off len f]) y = onSlice off len f (val w x) := by
  simp only [run, List.foldl_cons, List.foldl_nil, step, put, val]
  by_cases e : x = y
  · subst e; simp
  · simp [Function.update_of_ne e]

example : Inv (⟨fun x => x.val, fun b i => b + i, 3⟩ : World 3 Nat) ∧
    SafeHist (⟨fun x => x.val, fun b i => b + i, 3⟩ : World 3 Nat) [.assign 1 0, .detach 1, .writeComp 1 0 2 (fun v i => v i + 1), .write 0 (fun v i => v i * 2)] := by
  refine ⟨fun x => x.isLt, trivial, trivial, ?_, trivial, trivial⟩
  exact cow_unshared (inv_step (w := ⟨fun x => x.val, fun b i => b + i, 3⟩) (fun x => x.isLt) (.assign 1 0)) 1

end Verif.Product
