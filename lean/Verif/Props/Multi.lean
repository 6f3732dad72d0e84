import Verif.Manifold.Multi
import Mathlib.Tactic.Ring
import Mathlib.Tactic.Linarith
import Mathlib.Tactic.NormNum
import Mathlib.Tactic.FinCases
import Mathlib.Algebra.Order.BigOperators.Group.List
import Mathlib.Data.Fin.VecNotation
import Mathlib.Algebra.BigOperators.Fin

/-!
# Products of manifolds: property C43

Every operation on a product acts on every component with the operation of the manifold of that component; sums run over all components.
-/

set_option linter.unusedVariables false

namespace Verif.Multi

open Verif.Elem

variable {P V : Type}

/-! ## Specification -/

/-- The type of every component, in order: type `i` repeated `ks i` times. -/
def types (ks : Nat → Nat) (nt : Nat) : List Nat := (List.range nt).flatMap fun i => List.replicate (ks i) i

/-- `X` is a product of `ks i` copies of the manifold `M i`, `i < nt`, made by one of the constructors. -/
def Made (X : ProdMan P V) (ks : Nat → Nat) : Prop := ∀ i, i ≤ X.nt → X.pw i = ((List.range i).map ks).sum

/-- Component `j` has type `t`. -/
def IsComp (X : ProdMan P V) (ks : Nat → Nat) (j t : Nat) : Prop := (types ks X.nt)[j]? = some t

/-- Sum over all components of a function of the type and the number. -/
noncomputable def sumComps (X : ProdMan P V) (ks : Nat → Nat) (f : Nat → Nat → ℝ) : ℝ := ((types ks X.nt).zipIdx.map fun q => f q.1 q.2).sum

/-! ## Auxiliary lemmas -/

theorem pows_sum (ks : Nat → Nat) (i : Nat) : pows ks i = ((List.range i).map ks).sum := by
  induction i with
  | zero => rfl
  | succ i ih => rw [pows, ih, List.range_succ, List.map_append, List.sum_append]; simp

theorem types_succ (ks : Nat → Nat) (nt : Nat) : types ks (nt + 1) = types ks nt ++ List.replicate (ks nt) nt := by
  simp [types, List.range_succ]

theorem length_types (ks : Nat → Nat) (nt : Nat) : (types ks nt).length = ((List.range nt).map ks).sum := by
  induction nt with
  | zero => rfl
  | succ n ih => rw [types_succ, List.length_append, ih, List.range_succ, List.map_append, List.sum_append]; simp

theorem zipIdx_replicate {α : Type} (a : α) (n k : Nat) : (List.replicate n a).zipIdx k = (List.range' k n).map fun j => (a, j) := by
  induction n generalizing k with
  | zero => rfl
  | succ n ih => rw [List.replicate_succ, List.zipIdx_cons, ih, List.range'_succ, List.map_cons]

/-- The nested loops visit the components once, in order, with their type. -/
theorem loop_eq {ks pw : Nat → Nat} (nt : Nat) (h : ∀ i, i ≤ nt → pw i = ((List.range i).map ks).sum) : loop pw nt = (types ks nt).zipIdx := by
  induction nt with
  | zero => rfl
  | succ n ih =>
    have h1 := h n (by omega)
    have h2 := h (n + 1) (by omega)
    rw [List.range_succ, List.map_append, List.sum_append, ← h1] at h2
    simp only [List.map_cons, List.map_nil, List.sum_cons, List.sum_nil, Nat.add_zero] at h2
    rw [types_succ, List.zipIdx_append, zipIdx_replicate, length_types, ← h1, ← ih fun i hi => h i (by omega)]
    simp only [loop, List.range_succ, List.flatMap_append, List.flatMap_cons, List.flatMap_nil, List.append_nil]
    rw [h2, Nat.add_sub_cancel_left, Nat.zero_add]

theorem foldl_sum {α : Type} (l : List α) (f : α → ℝ) (s : ℝ) : l.foldl (fun s q => s + f q) s = s + (l.map f).sum := by
  induction l generalizing s with
  | nil => simp
  | cons a l ih => rw [List.foldl_cons, ih, List.map_cons, List.sum_cons]; ring

theorem comps_spec {W : Type} {X : ProdMan P V} {ks : Nat → Nat} (h : Made X ks) (old : Nat → W) (f : Nat → Nat → W) :
    (∀ j t, IsComp X ks j t → comps X old f j = f t j) ∧ ∀ j, (types ks X.nt).length ≤ j → comps X old f j = old j := by
  unfold comps
  rw [loop_eq X.nt h]
  have hm : ∀ j v, (j, v) ∈ ((types ks X.nt).zipIdx.map fun q => (q.2, f q.1 q.2)) ↔ ∃ t, IsComp X ks j t ∧ v = f t j := by
    intro j v
    simp only [List.mem_map, Prod.exists, List.mk_mem_zipIdx_iff_getElem?, Prod.mk.injEq, IsComp]
    constructor
    · rintro ⟨t, j', h1, rfl, rfl⟩; exact ⟨t, h1, rfl⟩
    · rintro ⟨t, h1, rfl⟩; exact ⟨t, j, h1, rfl, rfl⟩
  refine ⟨fun j t ht => writeAll_of_mem _ _ _ _ ((hm _ _).mpr ⟨t, ht, rfl⟩) fun v hv => ?_, fun j hj => writeAll_of_not_mem _ _ _ fun v hv => ?_⟩
  · obtain ⟨t', h1, rfl⟩ := (hm _ _).mp hv
    rw [IsComp, ht] at h1
    cases h1; rfl
  · obtain ⟨t', h1, rfl⟩ := (hm _ _).mp hv
    rw [IsComp, List.getElem?_eq_none hj] at h1
    cases h1

/-! ## C43 -/

/-- **C43 (constructors).** Both constructors make the product; the number of components is the sum of the powers; there are exactly so many components, each with one type, and the
dimensions are the sums of the dimensions of all components. -/
theorem C43_constructors (nt : Nat) (M : Nat → Comp P V) (flag : Nat → Bool) (ks inpow : Nat → Nat) (hin : ∀ i, i ≤ nt → inpow i = ((List.range i).map ks).sum) :
    Made (mk nt M flag ks) ks ∧ Made (mk' nt M flag inpow) ks ∧ total (mk nt M flag ks) = ((List.range nt).map ks).sum ∧ total' nt inpow = ((List.range nt).map ks).sum ∧
    (types ks nt).length = ((List.range nt).map ks).sum := by
  refine ⟨fun i _ => pows_sum ks i, fun i hi => ?_, ?_, hin nt le_rfl, length_types ks nt⟩
  · show (if i = 0 then 0 else inpow i) = _
    split
    next h => subst h; rfl
    next h => exact hin i hi
  · show ((List.range nt).map fun i => pows ks (i + 1) - pows ks i).sum = _
    congr 1
    exact List.map_congr_left fun i _ => by rw [pows, Nat.add_sub_cancel_left]

/-- **C43 (dimensions).** -/
theorem C43_dims {X : ProdMan P V} {ks : Nat → Nat} (h : Made X ks) :
    extrDim X = ((types ks X.nt).map fun t => (X.M t).extrDim).sum ∧ intrDim X = ((types ks X.nt).map fun t => (X.M t).intrDim).sum := by
  have key : ∀ (d : Nat → Nat) (n : Nat), n ≤ X.nt → ((List.range n).map fun i => (X.pw (i + 1) - X.pw i) * d i).sum = ((types ks n).map d).sum := by
    intro d n
    induction n with
    | zero => intro _; rfl
    | succ n ih =>
      intro hn
      have h1 := h n (by omega)
      have h2 := h (n + 1) hn
      rw [List.range_succ, List.map_append, List.sum_append, ← h1] at h2
      simp only [List.map_cons, List.map_nil, List.sum_cons, List.sum_nil, Nat.add_zero] at h2
      rw [List.range_succ, List.map_append, List.sum_append, ih (by omega), types_succ, List.map_append, List.sum_append, List.map_replicate, List.sum_replicate]
      simp [h2]
  exact ⟨key _ _ le_rfl, key _ _ le_rfl⟩

/-- **C43 (metric).** The metric is the sum of the metrics of all components. -/
theorem C43_metric {X : ProdMan P V} {ks : Nat → Nat} (h : Made X ks) (x : Nat → P) (η ξ : Nat → V) :
    metric X x η ξ = sumComps X ks fun t j => (X.M t).metric (X.flag t) (x j) (η j) (ξ j) := by
  rw [metric, loop_eq X.nt h, foldl_sum, zero_add]; rfl

/-- **C43 (distance).** The squared distance is the sum of the squared distances of all components. -/
theorem C43_dist {X : ProdMan P V} {ks : Nat → Nat} (h : Made X ks) (x y : Nat → P) :
    0 ≤ dist X x y ∧ dist X x y ^ 2 = sumComps X ks fun t j => (X.M t).dist (x j) (y j) ^ 2 := by
  have e : dist X x y = √(sumComps X ks fun t j => (X.M t).dist (x j) (y j) ^ 2) := by
    rw [dist, loop_eq X.nt h, foldl_sum, zero_add, sumComps]
    simp only [pow_two]
  rw [e]
  refine ⟨Real.sqrt_nonneg _, Real.sq_sqrt ?_⟩
  refine List.sum_nonneg fun a ha => ?_
  obtain ⟨q, -, rfl⟩ := List.mem_map.mp ha
  exact sq_nonneg _

/-- **C43 (operations).** Projection, extrinsic projection, cotangent vector, derivative of the retraction, both transports, conversion of the gradient and the Hessian act on every
component with the operation of its manifold, in the representation the component has chosen; nothing else is written. -/
theorem C43_operations {X : ProdMan P V} {ks : Nat → Nat} (h : Made X ks) (x y : Nat → P) (η ξ old : Nat → V) (same : Bool) :
    (∀ j t, IsComp X ks j t →
      proj X x η old j = (X.M t).proj (X.flag t) (x j) (η j) ∧
      extrProj X x η old j = (X.M t).extrProj (x j) (η j) ∧
      coTan X x η y ξ old j = (X.M t).coTan (X.flag t) (x j) (η j) (y j) (ξ j) ∧
      diffRetr X x η y ξ same old j = (X.M t).diffRetr (X.flag t) (x j) (η j) (y j) (ξ j) same ∧
      tran X x η y ξ old j = (X.M t).tran (X.flag t) (x j) (η j) (y j) (ξ j) ∧
      invTran X x η y ξ old j = (X.M t).invTran (X.flag t) (x j) (η j) (y j) (ξ j) ∧
      flat X x ξ j = (X.M t).flat (X.flag t) (x j) (ξ j) ∧
      grad X x ξ old j = (X.M t).grad (X.flag t) (x j) (ξ j) ∧
      hess X x η ξ old j = (X.M t).hess (X.flag t) (x j) (η j) (ξ j) ∧
      (X.flag t = true → toIntr X x η old j = (X.M t).toIntr (x j) (η j) ∧ toExtr X x η old j = (X.M t).toExtr (x j) (η j)) ∧
      (X.flag t = false → toIntr X x η old j = η j ∧ toExtr X x η old j = η j)) ∧
    (∀ j, (types ks X.nt).length ≤ j → proj X x η old j = old j ∧ tran X x η y ξ old j = old j) := by
  refine ⟨fun j t ht => ?_, fun j hj => ⟨(comps_spec h _ _).2 j hj, (comps_spec h _ _).2 j hj⟩⟩
  refine ⟨(comps_spec h _ _).1 j t ht, (comps_spec h _ _).1 j t ht, (comps_spec h _ _).1 j t ht, (comps_spec h _ _).1 j t ht, (comps_spec h _ _).1 j t ht,
    (comps_spec h _ _).1 j t ht, (comps_spec h _ _).1 j t ht, (comps_spec h _ _).1 j t ht, (comps_spec h _ _).1 j t ht, fun hf => ⟨?_, ?_⟩, fun hf => ⟨?_, ?_⟩⟩
  · exact ((comps_spec h _ _).1 j t ht).trans (if_pos hf)
  · exact ((comps_spec h _ _).1 j t ht).trans (if_pos hf)
  · exact ((comps_spec h _ _).1 j t ht).trans (if_neg (by simp [hf]))
  · exact ((comps_spec h _ _).1 j t ht).trans (if_neg (by simp [hf]))

/-- The loop of the extrinsic branch of the retractions. -/
theorem ext_fold {W : Type} (X : ProdMan P V) (g : Nat → Nat → W) (l : List (Nat × Nat)) (hu : ∀ q ∈ l, ∀ q' ∈ l, q.2 = q'.2 → q = q') (s : (Nat → W) × ProdMan P V) :
    let r := l.foldl (fun (s : (Nat → W) × ProdMan P V) (q : Nat × Nat) => (fun k => if k = q.2 then g q.1 q.2 else s.1 k, { s.2 with flag := fun k => if k = q.1 then true else s.2.flag k })) s
    (∀ q ∈ l, r.1 q.2 = g q.1 q.2) ∧ (∀ k, (∀ q ∈ l, q.2 ≠ k) → r.1 k = s.1 k) ∧ (∀ k, r.2.flag k = true ↔ s.2.flag k = true ∨ ∃ q ∈ l, q.1 = k) := by
  induction l generalizing s with
  | nil => simp
  | cons a l ih =>
    intro r
    have hu' : ∀ q ∈ l, ∀ q' ∈ l, q.2 = q'.2 → q = q' := fun q hq q' hq' => hu q (by simp [hq]) q' (by simp [hq'])
    obtain ⟨h1, h2, h3⟩ := ih hu' (fun k => if k = a.2 then g a.1 a.2 else s.1 k, { s.2 with flag := fun k => if k = a.1 then true else s.2.flag k })
    refine ⟨fun q hq => ?_, fun k hk => ?_, fun k => ?_⟩
    · rcases List.mem_cons.mp hq with rfl | hq
      · by_cases hin : ∃ q' ∈ l, q'.2 = q.2
        · obtain ⟨q', hq', e⟩ := hin
          have := hu q' (by simp [hq']) q (by simp) e
          subst this
          exact h1 _ hq'
        · have := h2 q.2 fun q' hq' e => hin ⟨q', hq', e⟩
          exact this.trans (if_pos rfl)
      · exact h1 q hq
    · have := h2 k fun q hq => hk q (by simp [hq])
      exact this.trans (if_neg fun e => hk a (by simp) e.symm)
    · refine (h3 k).trans ?_
      by_cases hk : k = a.1
      · subst hk; simp
      · have : ¬ a.1 = k := fun e => hk e.symm
        simp [hk, this]

/-- **C43 (retraction).** The retraction and its inverse act on every component: in the representation of the component, or extrinsically when the product is extrinsic. -/
theorem C43_retraction {X : ProdMan P V} {ks : Nat → Nat} (h : Made X ks) (x y : Nat → P) (η : Nat → V) (old : Nat → P) (oldV : Nat → V) :
    ∀ j t, IsComp X ks j t → (retr X x η old).1 j = (X.M t).retr (X.intr && X.flag t) (x j) (η j) ∧
      (invRetr X x y oldV).1 j = (X.M t).invRetr (X.intr && X.flag t) (x j) (y j) := by
  intro j t ht
  cases hi : X.intr
  · have hu : ∀ q ∈ loop X.pw X.nt, ∀ q' ∈ loop X.pw X.nt, q.2 = q'.2 → q = q' := by
      rw [loop_eq X.nt h]
      rintro ⟨a, b⟩ hq ⟨c, d⟩ hq' (rfl : b = d)
      rw [List.mk_mem_zipIdx_iff_getElem?] at hq hq'
      rw [hq] at hq'
      cases hq'; rfl
    have hm : (t, j) ∈ loop X.pw X.nt := by rw [loop_eq X.nt h, List.mk_mem_zipIdx_iff_getElem?]; exact ht
    have e1 := (ext_fold X (fun i j => (X.M i).retr false (x j) (η j)) (loop X.pw X.nt) hu (old, X)).1 (t, j) hm
    have e2 := (ext_fold X (fun i j => (X.M i).invRetr false (x j) (y j)) (loop X.pw X.nt) hu (oldV, X)).1 (t, j) hm
    simp only [retr, invRetr, hi, Bool.false_and]
    exact ⟨e1, e2⟩
  · simp only [retr, invRetr, hi, Bool.true_and, if_true]
    exact ⟨(comps_spec h _ _).1 j t ht, (comps_spec h _ _).1 j t ht⟩

/-- **C43 (what a retraction leaves behind).** An intrinsic product is unchanged; after the retraction of an extrinsic product every component manifold that occurs is switched to the
intrinsic representation, whatever it was before. -/
theorem C43_retraction_flags_partial {X : ProdMan P V} {ks : Nat → Nat} (h : Made X ks) (x : Nat → P) (η : Nat → V) (old : Nat → P) :
    (X.intr = true → (retr X x η old).2 = X) ∧
    (X.intr = false → ∀ j t, IsComp X ks j t → (retr X x η old).2.flag t = true) := by
  constructor
  · intro hi; simp [retr, hi]
  · intro hi j t ht
    have hu : ∀ q ∈ loop X.pw X.nt, ∀ q' ∈ loop X.pw X.nt, q.2 = q'.2 → q = q' := by
      rw [loop_eq X.nt h]
      rintro ⟨a, b⟩ hq ⟨c, d⟩ hq' (rfl : b = d)
      rw [List.mk_mem_zipIdx_iff_getElem?] at hq hq'
      rw [hq] at hq'
      cases hq'; rfl
    have hm : (t, j) ∈ loop X.pw X.nt := by rw [loop_eq X.nt h, List.mk_mem_zipIdx_iff_getElem?]; exact ht
    have := ((ext_fold X (fun i j => (X.M i).retr false (x j) (η j)) (loop X.pw X.nt) hu (old, X)).2.2 t).mpr (Or.inr ⟨(t, j), hm, rfl⟩)
    simp only [retr, hi]
    exact this

/-! ### Consequences for products -/

theorem sumComps_congr {X : ProdMan P V} {ks : Nat → Nat} {f g : Nat → Nat → ℝ} (h : ∀ j t, IsComp X ks j t → f t j = g t j) : sumComps X ks f = sumComps X ks g := by
  unfold sumComps
  congr 1
  refine List.map_congr_left ?_
  rintro ⟨t, j⟩ hq
  exact h j t (List.mk_mem_zipIdx_iff_getElem?.mp hq)

/-- **C43 (symmetric, positive).** A product of manifolds with symmetric metrics has a symmetric metric; the same for nonnegative, and a vector of length zero has components of length zero. -/
theorem C43_metric_inner {X : ProdMan P V} {ks : Nat → Nat} (h : Made X ks) (x : Nat → P) :
    ((∀ j t, IsComp X ks j t → ∀ u v, (X.M t).metric (X.flag t) (x j) u v = (X.M t).metric (X.flag t) (x j) v u) → ∀ η ξ, metric X x η ξ = metric X x ξ η) ∧
    ((∀ j t, IsComp X ks j t → ∀ u, 0 ≤ (X.M t).metric (X.flag t) (x j) u u) → ∀ η, 0 ≤ metric X x η η ∧
      (metric X x η η = 0 → ∀ j t, IsComp X ks j t → (X.M t).metric (X.flag t) (x j) (η j) (η j) = 0)) := by
  constructor
  · intro hs η ξ
    rw [C43_metric h, C43_metric h]
    exact sumComps_congr fun j t ht => hs j t ht _ _
  · intro hp η
    rw [C43_metric h]
    have hnn : ∀ a ∈ (types ks X.nt).zipIdx.map (fun q => (X.M q.1).metric (X.flag q.1) (x q.2) (η q.2) (η q.2)), 0 ≤ a := by
      intro a ha
      obtain ⟨⟨t, j⟩, hq, rfl⟩ := List.mem_map.mp ha
      exact hp j t (List.mk_mem_zipIdx_iff_getElem?.mp hq) _
    refine ⟨List.sum_nonneg hnn, fun h0 j t ht => ?_⟩
    exact List.all_zero_of_le_zero_le_of_sum_eq_zero hnn h0 (List.mem_map.mpr ⟨(t, j), List.mk_mem_zipIdx_iff_getElem?.mpr ht, rfl⟩)

/-- **C43 (isometric transport).** If the transports of the components are isometric, so is the transport of the product; if their inverse transports undo them, so does that of the product. -/
theorem C43_transport {X : ProdMan P V} {ks : Nat → Nat} (h : Made X ks) (x y : Nat → P) (η ξ ζ old : Nat → V) :
    ((∀ j t, IsComp X ks j t → ∀ u v, (X.M t).metric (X.flag t) (y j) ((X.M t).tran (X.flag t) (x j) (η j) (y j) u) ((X.M t).tran (X.flag t) (x j) (η j) (y j) v) =
        (X.M t).metric (X.flag t) (x j) u v) → metric X y (tran X x η y ξ old) (tran X x η y ζ old) = metric X x ξ ζ) ∧
    ((∀ j t, IsComp X ks j t → ∀ u, (X.M t).invTran (X.flag t) (x j) (η j) (y j) ((X.M t).tran (X.flag t) (x j) (η j) (y j) u) = u) →
      ∀ j t, IsComp X ks j t → invTran X x η y (tran X x η y ξ old) old j = ξ j) := by
  constructor
  · intro hiso
    rw [C43_metric h, C43_metric h]
    refine sumComps_congr fun j t ht => ?_
    rw [((C43_operations h x y η ξ old false).1 j t ht).2.2.2.2.1, ((C43_operations h x y η ζ old false).1 j t ht).2.2.2.2.1, hiso j t ht]
  · intro hinv j t ht
    rw [((C43_operations h x y η _ old false).1 j t ht).2.2.2.2.2.1, ((C43_operations h x y η ξ old false).1 j t ht).2.2.2.2.1, hinv j t ht]

/-! ### Operators -/

/-- Coordinates of component `j` start here. -/
def offset (len : Nat → Nat) (j : Nat) : Nat := ((List.range j).map len).sum

/-- The block-diagonal operator: the coordinates of component `j` of the result are `A j` of the coordinates of component `j`, for the first `n` components. -/
def IsBlockDiag (len : Nat → Nat) (n : Nat) (A : Nat → Op) (B : Op) : Prop :=
  ∀ v, (∀ j < n, ∀ i < len j, B v (offset len j + i) = A j (fun k => v (offset len j + k)) i) ∧ ∀ k, offset len n ≤ k → B v k = v k

/-- An operator on `n` coordinates: what it computes depends on the first `n` entries only. -/
def Local (n : Nat) (A : Op) : Prop := ∀ u v, (∀ i < n, u i = v i) → ∀ i < n, A u i = A v i

theorem offset_succ (len : Nat → Nat) (j : Nat) : offset len (j + 1) = offset len j + len j := by
  simp [offset, List.range_succ]

theorem offset_mono (len : Nat → Nat) {a b : Nat} (h : a ≤ b) : offset len a ≤ offset len b := by
  induction b, h using Nat.le_induction with
  | base => exact le_rfl
  | succ b _ ih => rw [offset_succ]; omega

theorem onBlock_in {s e : Nat} {T : Op} {v : Nat → ℝ} {i : Nat} (h : s + i < e) : onBlock s e T v (s + i) = T (fun k => v (s + k)) i := by
  unfold onBlock
  rw [if_pos ⟨by omega, h⟩, Nat.add_sub_cancel_left]

theorem onBlock_out {s e : Nat} {T : Op} {v : Nat → ℝ} {k : Nat} (h : k < s ∨ e ≤ k) : onBlock s e T v k = v k := by
  unfold onBlock
  rw [if_neg (by omega)]

/-- Adding one block after the others. -/
theorem blockDiag_left {len : Nat → Nat} {n : Nat} {A : Nat → Op} {B : Op} (hB : IsBlockDiag len n A B) (hl : Local (len n) (A n)) :
    IsBlockDiag len (n + 1) A (fun v => onBlock (offset len n) (offset len n + len n) (A n) (B v)) := by
  intro v
  obtain ⟨h1, h2⟩ := hB v
  refine ⟨fun j hj i hi => ?_, fun k hk => ?_⟩ <;> beta_reduce
  · by_cases hjn : j = n
    · subst hjn
      rw [onBlock_in (by omega)]
      exact hl _ _ (fun i _ => h2 _ (by omega)) i hi
    · have := offset_mono len (show j + 1 ≤ n by omega)
      rw [offset_succ] at this
      rw [onBlock_out (by omega), h1 j (by omega) i hi]
  · rw [offset_succ] at hk
    rw [onBlock_out (by omega), h2 k (by omega)]

/-- Adding one block before the others. -/
theorem blockDiag_right {len : Nat → Nat} {n : Nat} {A : Nat → Op} {B : Op} (hB : IsBlockDiag len n A B) (hl : ∀ j ≤ n, Local (len j) (A j)) :
    IsBlockDiag len (n + 1) A (fun v => B (onBlock (offset len n) (offset len n + len n) (A n) v)) := by
  intro v
  obtain ⟨h1, h2⟩ := hB (onBlock (offset len n) (offset len n + len n) (A n) v)
  refine ⟨fun j hj i hi => ?_, fun k hk => ?_⟩ <;> beta_reduce
  · by_cases hjn : j = n
    · subst hjn
      rw [h2 _ (by omega), onBlock_in (by omega)]
    · have := offset_mono len (show j + 1 ≤ n by omega)
      rw [offset_succ] at this
      rw [h1 j (by omega) i hi]
      exact hl j (by omega) _ _ (fun i' hi' => onBlock_out (by omega)) i hi
  · rw [offset_succ] at hk
    rw [h2 k (by omega), onBlock_out (by omega)]

/-- **C43 (operators).** When the result object is the operator itself (as in all calls of the solvers), the result is `T H T⁻¹` with `T` and `T⁻¹` block diagonal: the transports and the
inverse transports of the components, each on its own coordinates. -/
theorem C43_tranHInvTran_partial {X : ProdMan P V} {ks : Nat → Nat} (h : Made X ks) (len : Nat → Nat) (T Ti : Nat → Nat → Op)
    (hT : ∀ j t, IsComp X ks j t → Local (len j) (T t j) ∧ Local (len j) (Ti t j)) (H : Op) :
    ∃ B Bi : Op, IsBlockDiag len (types ks X.nt).length (fun j => T ((types ks X.nt).getD j 0) j) B ∧
      IsBlockDiag len (types ks X.nt).length (fun j => Ti ((types ks X.nt).getD j 0) j) Bi ∧
      ∀ v, tranHInvTran X len T Ti H H v = B (H (Bi v)) := by
  unfold tranHInvTran
  rw [loop_eq X.nt h]
  generalize hl : types ks X.nt = l
  have hT' : ∀ j t, l[j]? = some t → Local (len j) (T t j) ∧ Local (len j) (Ti t j) := fun j t ht => hT j t (by rw [IsComp, hl]; exact ht)
  clear hT hl
  suffices hs : ∃ B Bi : Op, IsBlockDiag len l.length (fun j => T (l.getD j 0) j) B ∧ IsBlockDiag len l.length (fun j => Ti (l.getD j 0) j) Bi ∧
      l.zipIdx.foldl (fun (s : Nat × Op) (q : Nat × Nat) => (s.1 + len q.2, fun v => onBlock s.1 (s.1 + len q.2) (T q.1 q.2) (s.2 (onBlock s.1 (s.1 + len q.2) (Ti q.1 q.2) v)))) (0, H) =
        (offset len l.length, fun v => B (H (Bi v))) by
    obtain ⟨B, Bi, h1, h2, h3⟩ := hs
    exact ⟨B, Bi, h1, h2, fun v => congrFun (congrArg Prod.snd h3) v⟩
  induction l using List.reverseRecOn with
  | nil =>
    exact ⟨fun v => v, fun v => v, fun v => ⟨fun j hj => absurd hj (by simp), fun _ _ => rfl⟩, fun v => ⟨fun j hj => absurd hj (by simp), fun _ _ => rfl⟩, rfl⟩
  | append_singleton l a ih =>
    have hget : ∀ j < l.length, (l ++ [a]).getD j 0 = l.getD j 0 := by
      intro j hj
      simp [List.getD_eq_getElem?_getD, List.getElem?_append_left hj]
    have hlast : (l ++ [a]).getD l.length 0 = a := by simp [List.getD_eq_getElem?_getD]
    obtain ⟨B, Bi, h1, h2, h3⟩ := ih fun j t ht => by
      refine hT' j t ?_
      have := (List.getElem?_eq_some_iff.mp ht).1
      rw [List.getElem?_append_left this, ht]
    have hloc : ∀ j ≤ l.length, Local (len j) (T ((l ++ [a]).getD j 0) j) ∧ Local (len j) (Ti ((l ++ [a]).getD j 0) j) := by
      intro j hj
      refine hT' j _ ?_
      have : j < (l ++ [a]).length := by simp; omega
      simp [List.getD_eq_getElem?_getD, List.getElem?_eq_getElem this]
    have c1 : IsBlockDiag len l.length (fun j => T ((l ++ [a]).getD j 0) j) B := by
      intro v
      refine ⟨fun j hj i hi => ?_, (h1 v).2⟩
      have := (h1 v).1 j hj i hi
      simp only [hget j hj]; exact this
    have c2 : IsBlockDiag len l.length (fun j => Ti ((l ++ [a]).getD j 0) j) Bi := by
      intro v
      refine ⟨fun j hj i hi => ?_, (h2 v).2⟩
      have := (h2 v).1 j hj i hi
      simp only [hget j hj]; exact this
    have d1 := blockDiag_left c1 (hloc l.length le_rfl).1
    have d2 := blockDiag_right c2 (fun j hj => (hloc j hj).2)
    refine ⟨_, _, by rw [List.length_append]; exact d1, by rw [List.length_append]; exact d2, ?_⟩
    rw [List.zipIdx_append, List.foldl_append, h3]
    simp only [List.zipIdx_cons, List.zipIdx_nil, List.foldl_cons, List.foldl_nil, Nat.zero_add, hlast, List.length_append, List.length_singleton, offset_succ]

/-- **C43 (operators, separate result; negation).** When the result is a separate object, the operator to be transported is not read at all. -/
theorem C43_tranHInvTran_ignores (X : ProdMan P V) (len : Nat → Nat) (T Ti : Nat → Nat → Op) (H H' res : Op) :
    tranHInvTran X len T Ti H res = tranHInvTran X len T Ti H' res := rfl

/-! ## C79: the scaling factor stored with the derivative of the retraction -/

theorem scale_sq {a b c : ℝ} (ha : 0 < a) (hb : 0 < b) (hc : 0 < c) : (√(a / b) / √(a / c) * √(a / c)) ^ 2 = a / b := by
  have : √(a / c) ≠ 0 := (Real.sqrt_pos.mpr (div_pos ha hc)).ne'
  rw [div_mul_cancel₀ _ this, Real.sq_sqrt (div_pos ha hb).le]

/-- **C79 (single manifolds).** The vector "betaTReta" has the length of the search direction. -/
theorem C79_beta {V : Type} {mx my : V → V → ℝ} {η ξ d : V} (hη : 0 < mx η η) (hξ : 0 < mx ξ ξ) (hd : 0 < my d d) :
    betaScale1 mx my η ξ d ^ 2 * my d d = mx η η := by
  rw [betaScale1, beta1, scale_sq hη hd hξ, div_mul_cancel₀ _ hd.ne']

/-- **C79 (products).** In a product this holds exactly when the transported direction has the same length measured at `x` and at `y`. -/
theorem C79_product_beta_partial {X : ProdMan P V} {x y : Nat → P} {η ξ d : Nat → V} (hη : 0 < metric X x η η) (hξ : 0 < metric X x ξ ξ) (hd : 0 < metric X x d d) :
    betaScale X x η ξ d ^ 2 * metric X y d d = metric X x η η ↔ metric X y d d = metric X x d d := by
  rw [betaScale, beta, scale_sq hη hd hξ, div_mul_eq_mul_div, div_eq_iff hd.ne']
  exact mul_right_inj' hη.ne'

/-- **C79 (fallback of Beta).** Without the field "beta" of the whole vector, `Beta` gives 1, whatever was stored with the components of the vector: it looks for the field in the
components of the point. -/
theorem C79_beta_fallback (X : ProdMan P V) (x : Nat → P) (η : Nat → V) (hη : metric X x η η ≠ 0) : betaOf X none (fun _ => none) x η = 1 := by
  have key : ∀ (l : List (Nat × Nat)) (s : ℝ × ℝ), s.1 = s.2 → l.foldl (fun (s : ℝ × ℝ) (q : Nat × Nat) =>
      (s.1 + (X.M q.1).metric (X.flag q.1) (x q.2) (η q.2) (η q.2), s.2 + (X.M q.1).metric (X.flag q.1) (x q.2) (η q.2) (η q.2))) s =
      (s.1 + (l.map fun q => (X.M q.1).metric (X.flag q.1) (x q.2) (η q.2) (η q.2)).sum, s.1 + (l.map fun q => (X.M q.1).metric (X.flag q.1) (x q.2) (η q.2) (η q.2)).sum) := by
    intro l
    induction l with
    | nil => intro s hs; simp [Prod.ext_iff, hs]
    | cons a l ih =>
      intro s hs
      rw [List.foldl_cons, ih _ (by simp [hs]), List.map_cons, List.sum_cons]
      simp [add_assoc]
  have hm : metric X x η η = ((loop X.pw X.nt).map fun q => (X.M q.1).metric (X.flag q.1) (x q.2) (η q.2) (η q.2)).sum := by
    rw [metric, foldl_sum, zero_add]
  simp only [betaOf]
  rw [key _ (0, 0) rfl, ← hm, zero_add, div_self hη, Real.sqrt_one]

/-- Positive numbers with the affine-invariant metric and the second-order retraction: `SPDManifold` with `n = 1`, extrinsic. -/
noncomputable def pos1 : Comp ℝ ℝ where
  extrDim := 1
  intrDim := 1
  metric _ x u v := u * v / x ^ 2
  proj _ _ v := v
  extrProj _ v := v
  retr _ x v := x + v + v ^ 2 / (2 * x)
  invRetr _ _ y := y
  coTan _ _ _ _ v := v
  diffRetr _ x η _ v _ := v + η * v / x
  dist x y := |x - y|
  tran _ _ _ _ v := v
  invTran _ _ _ _ v := v
  toIntr x v := v / x
  toExtr x v := v * x
  flat _ x v := v / x ^ 2
  grad _ x v := x * v * x
  hess _ _ _ v := v

/-- **C79 (products, negation).** Product of one copy of the positive numbers, `x = 1`, direction `1`: the vector "betaTReta" at the new point does not have the length of the direction. -/
theorem C79_product_beta_fails : ∃ (X : ProdMan ℝ ℝ) (x y η d : Nat → ℝ), Made X (fun _ => 1) ∧ (∀ old, (retr X x η old).1 0 = y 0) ∧ (∀ old, diffRetr X x η y η true old 0 = d 0) ∧
    0 < metric X x η η ∧ betaScale X x η η d ^ 2 * metric X y d d ≠ metric X x η η := by
  let X : ProdMan ℝ ℝ := mk 1 (fun _ => pos1) (fun _ => false) (fun _ => 1)
  have hm : Made X (fun _ => 1) := fun i _ => pows_sum _ i
  have em : ∀ x η ξ : Nat → ℝ, metric X x η ξ = η 0 * ξ 0 / x 0 ^ 2 := by
    intro x η ξ
    rw [C43_metric hm]
    show (List.map _ [((0 : Nat), (0 : Nat))]).sum = _
    simp [X, mk, pos1]
  refine ⟨X, fun _ => 1, fun _ => 5 / 2, fun _ => 1, fun _ => 2, hm, fun old => ?_, fun old => ?_, ?_, ?_⟩
  · rw [(C43_retraction hm _ (fun _ => 0) _ _ (fun _ => 0) 0 0 (by rfl)).1]
    simp only [X, mk, pos1]; norm_num
  · rw [((C43_operations hm _ _ _ _ old true).1 0 0 (by rfl)).2.2.2.1]
    simp only [X, mk, pos1]; norm_num
  · rw [em]; norm_num
  · rw [Ne, C79_product_beta_partial (by rw [em]; norm_num) (by rw [em]; norm_num) (by rw [em]; norm_num), em, em]
    norm_num

/-! ### Defects and examples -/

/-- The component used in the examples: a sphere of vectors in the plane; `IntrProjection` is the identity, `ExtrProjection` removes the normal part (Manifold.cpp:37-59, Sphere). -/
noncomputable def circle : Comp (Fin 2 → ℝ) (Fin 2 → ℝ) where
  extrDim := 2
  intrDim := 1
  metric _ _ u v := u 0 * v 0 + u 1 * v 1
  proj f x v := if f then v else fun i => v i - (x 0 * v 0 + x 1 * v 1) * x i
  extrProj x v := fun i => v i - (x 0 * v 0 + x 1 * v 1) * x i
  retr f x v := if f then fun i => if i = 0 then x 0 - v 0 * x 1 else x 1 + v 0 * x 0 else fun i => x i + v i
  invRetr _ _ y := y
  coTan _ _ _ _ v := v
  diffRetr _ _ _ _ v _ := v
  dist x y := √((x 0 - y 0) ^ 2 + (x 1 - y 1) ^ 2)
  tran _ _ _ _ v := v
  invTran _ _ _ _ v := v
  toIntr x v := fun i => if i = 0 then -(x 1) * v 0 + x 0 * v 1 else 0
  toExtr x v := fun i => if i = 0 then -(v 0) * x 1 else v 0 * x 0
  flat _ _ v := v
  grad _ _ v := v
  hess _ _ _ v := v

/-- **C43 (extrinsic products, negation).** A product in extrinsic representation does not project: with components that are intrinsic on their own, a vector that is normal to every
component is returned unchanged. -/
theorem C43_extrinsic_projection_fails (k : Nat) (hk : 0 < k) (old : Nat → Fin 2 → ℝ) : ∃ (X : ProdMan (Fin 2 → ℝ) (Fin 2 → ℝ)) (x η : Nat → Fin 2 → ℝ), Made X (fun _ => k) ∧
    X.intr = false ∧ IsComp X (fun _ => k) 0 0 ∧ extrProj X x η old 0 = 0 ∧ proj X x η old 0 = η 0 ∧ η 0 ≠ 0 := by
  let X : ProdMan (Fin 2 → ℝ) (Fin 2 → ℝ) := { mk 1 (fun _ => circle) (fun _ => true) (fun _ => k) with intr := false }
  have hm : Made X (fun _ => k) := fun i _ => pows_sum _ i
  have hc : IsComp X (fun _ => k) 0 0 := by
    show (types (fun _ => k) 1)[0]? = some 0
    obtain ⟨m, rfl⟩ := Nat.exists_eq_succ_of_ne_zero hk.ne'
    simp [types, List.replicate_succ]
  refine ⟨X, fun _ => ![1, 0], fun _ => ![1, 0], hm, rfl, hc, ?_, ?_, ?_⟩
  · rw [((C43_operations hm _ (fun _ => 0) _ (fun _ => 0) old false).1 0 0 hc).2.1]
    ext i
    fin_cases i <;> simp [X, mk, circle]
  · rw [((C43_operations hm _ (fun _ => 0) _ (fun _ => 0) old false).1 0 0 hc).1]
    simp [X, mk, circle]
  · intro e
    have := congrFun e 0
    simp at this

/-- **C43 (extrinsic products, negation).** After a retraction of a product in extrinsic representation, an extrinsic component is treated as intrinsic: the next retraction of the
same product made intrinsic gives another point than before. -/
theorem C43_retraction_changes_component : ∃ (X : ProdMan (Fin 2 → ℝ) (Fin 2 → ℝ)) (x η old : Nat → Fin 2 → ℝ), Made X (fun _ => 1) ∧ X.intr = false ∧ X.flag 0 = false ∧
    (retr X x η old).2.flag 0 = true ∧
    (retr { X with intr := true } x η old).1 0 ≠ (retr { (retr X x η old).2 with intr := true } x η old).1 0 := by
  let X : ProdMan (Fin 2 → ℝ) (Fin 2 → ℝ) := { mk 1 (fun _ => circle) (fun _ => false) (fun _ => 1) with intr := false }
  have hm : Made X (fun _ => 1) := fun i _ => pows_sum _ i
  refine ⟨X, fun _ => ![1, 0], fun _ => ![0, 1], fun _ => 0, hm, rfl, rfl, ?_, ?_⟩
  · exact (C43_retraction_flags_partial hm _ _ _).2 rfl 0 0 (by rfl)
  · have e1 : (retr { X with intr := true } (fun _ => ![1, 0]) (fun _ => ![0, 1]) (fun _ => 0)).1 0 = (![1, 1] : Fin 2 → ℝ) := by
      have hm1 : Made { X with intr := true } (fun _ => 1) := fun i _ => pows_sum _ i
      rw [(C43_retraction hm1 _ (fun _ => 0) _ _ (fun _ => 0) 0 0 (by rfl)).1]
      ext i
      fin_cases i <;> simp [X, mk, circle]
    have e2 : (retr { (retr X (fun _ => ![1, 0]) (fun _ => ![0, 1]) (fun _ => 0)).2 with intr := true } (fun _ => ![1, 0]) (fun _ => ![0, 1]) (fun _ => 0)).1 0 = (![1, 0] : Fin 2 → ℝ) := by
      have hX : (retr X (fun _ => ![1, 0]) (fun _ => ![0, 1]) (fun _ => 0)).2 = { X with flag := fun k => if k = 0 then true else false } := rfl
      rw [hX]
      have hm2 : Made ({ X with flag := fun k => if k = 0 then true else false, intr := true } : ProdMan _ _) (fun _ => 1) := fun i _ => pows_sum _ i
      rw [(C43_retraction hm2 _ (fun _ => 0) _ _ (fun _ => 0) 0 0 (by rfl)).1]
      ext i
      fin_cases i <;> simp [X, mk, circle]
    rw [e1, e2]
    intro e
    have := congrFun e 1
    simp at this

example : Made (mk 2 (fun _ => circle) (fun _ => true) (fun i => if i = 0 then 2 else 3)) (fun i => if i = 0 then 2 else 3) ∧
    types (fun i => if i = 0 then 2 else 3) 2 = [0, 0, 1, 1, 1] ∧ loop (pows fun i => if i = 0 then 2 else 3) 2 = [(0, 0), (0, 1), (1, 2), (1, 3), (1, 4)] :=
  ⟨fun i _ => pows_sum _ i, by decide, by decide⟩

end Verif.Multi
