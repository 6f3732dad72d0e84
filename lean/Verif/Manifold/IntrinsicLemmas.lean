import Verif.Manifold.Intrinsic
import Mathlib.Algebra.BigOperators.Fin
import Mathlib.Data.List.Nodup
import Mathlib.Data.Finset.Prod

/-!
# Lemmas about the loops that produce and read intrinsic coordinates
-/

set_option linter.unusedSectionVars false
set_option linter.unusedVariables false

namespace Verif.Intr

open Verif.Elem Verif.Mat

theorem r2_mul_r2 : r2 * r2 = 2 := Real.mul_self_sqrt (by norm_num)

theorem r2_ne : r2 ≠ 0 := by
  intro h
  have := r2_mul_r2
  rw [h] at this
  norm_num at this

/-! ### Index lists -/

theorem mem_pairs {p i j : Nat} : (i, j) ∈ pairs p ↔ i < j ∧ j < p := by
  simp only [pairs, List.mem_flatMap, List.mem_range, List.mem_map, Prod.mk.injEq]
  constructor
  · rintro ⟨a, h1, d, h2, rfl, rfl⟩
    omega
  · rintro ⟨h1, h2⟩
    exact ⟨i, by omega, j - (i + 1), by omega, rfl, by omega⟩

theorem mem_rest {n p i j : Nat} : (i, j) ∈ rest n p ↔ i < p ∧ p ≤ j ∧ j < n := by
  simp only [rest, List.mem_flatMap, List.mem_range, List.mem_map, Prod.mk.injEq]
  constructor
  · rintro ⟨a, h1, d, h2, rfl, rfl⟩
    omega
  · rintro ⟨h1, h2, h3⟩
    exact ⟨i, by omega, j - p, by omega, rfl, by omega⟩

theorem nodup_rows {f : Nat → List Nat} (hf : ∀ i, (f i).Nodup) (p : Nat) : ((List.range p).flatMap fun i => (f i).map fun j => (i, j)).Nodup := by
  rw [List.nodup_flatMap]
  refine ⟨fun i _ => ?_, ?_⟩
  · exact (hf i).map (fun a b h => by simpa using h)
  · apply List.Pairwise.imp_of_mem _ List.nodup_range
    intro a b _ _ hab
    simp only [Function.onFun]
    rw [List.disjoint_left]
    intro q h1 h2
    obtain ⟨_, _, rfl⟩ := List.mem_map.mp h1
    obtain ⟨_, _, h⟩ := List.mem_map.mp h2
    exact hab (Prod.mk.injEq _ _ _ _ ▸ h).1.symm

theorem nodup_pairs (p : Nat) : (pairs p).Nodup := by
  have := nodup_rows (f := fun i => (List.range (p - (i + 1))).map fun d => i + 1 + d)
    (fun i => List.nodup_range.map (fun a b h => by simpa using h)) p
  simpa [pairs, List.map_map, Function.comp_def] using this

theorem nodup_rest (n p : Nat) : (rest n p).Nodup := by
  have := nodup_rows (f := fun _ => (List.range (n - p)).map fun d => p + d)
    (fun i => List.nodup_range.map (fun a b h => by simpa using h)) p
  simpa [rest, List.map_map, Function.comp_def] using this

theorem length_rest (n p : Nat) : (rest n p).length = p * (n - p) := by
  simp [rest, List.length_flatMap, List.map_const']

theorem two_mul_length_pairs (p : Nat) : 2 * (pairs p).length = p * (p - 1) := by
  have h : (pairs p).length = ∑ i ∈ Finset.range p, (p - (i + 1)) := by
    simp only [pairs, List.length_flatMap, List.length_map, List.length_range]
    rw [Finset.sum_range, ← List.sum_ofFn, List.ofFn_eq_map, ← List.map_coe_finRange_eq_range, List.map_map]
    rfl
  rw [h, Finset.sum_congr rfl (fun i hi => (by omega : p - (i + 1) = p - 1 - i)), Finset.sum_range_reflect (fun i => i) p, mul_comm,
    Finset.sum_range_id_mul_two]

theorem length_pairs (p : Nat) : (pairs p).length = p * (p - 1) / 2 := by
  have := two_mul_length_pairs p
  omega

theorem index_unique {α : Type} {l : List α} (h : l.Nodup) {q : α} {k k' : Nat} (h1 : l[k]? = some q) (h2 : l[k']? = some q) : k = k' := by
  obtain ⟨a1, e1⟩ := List.getElem?_eq_some_iff.mp h1
  obtain ⟨a2, e2⟩ := List.getElem?_eq_some_iff.mp h2
  exact (h.getElem_inj_iff).mp (e1.trans e2.symm)

theorem index_exists {α : Type} {l : List α} {q : α} (h : q ∈ l) : ∃ k : Nat, l[k]? = some q := List.mem_iff_getElem?.mp h

theorem idx_of_pair {p k i j : Nat} (h : (pairs p)[k]? = some (i, j)) : i < j ∧ j < p := mem_pairs.mp (List.mem_of_getElem? h)

theorem idx_of_rest {n p k i j : Nat} (h : (rest n p)[k]? = some (i, j)) : i < p ∧ p ≤ j ∧ j < n := mem_rest.mp (List.mem_of_getElem? h)

/-! ### Buffers -/

theorem flat_apply {n p : Nat} (A : Matrix (Fin n) (Fin p) ℝ) {i j : Nat} (hi : i < n) (hj : j < p) : flat A (i + j * n) = A ⟨i, hi⟩ ⟨j, hj⟩ := by
  have h1 : (i + j * n) % n = i := by rw [Nat.add_mul_mod_self_right]; exact Nat.mod_eq_of_lt hi
  have h2 : (i + j * n) / n = j := by
    rw [Nat.add_mul_div_right _ _ (by omega), Nat.div_eq_of_lt hi, Nat.zero_add]
  unfold flat
  rw [dif_pos ⟨by omega, by omega⟩]
  simp only [h1, h2]

theorem buf_append_left {l m : List ℝ} {k : Nat} (h : k < l.length) : buf (l ++ m) k = l[k] := by
  simp [buf, List.getD_eq_getElem?_getD, List.getElem?_append_left h, List.getElem?_eq_getElem h]

theorem buf_append_right {l m : List ℝ} {k : Nat} (h : k < m.length) : buf (l ++ m) (l.length + k) = m[k] := by
  simp [buf, List.getD_eq_getElem?_getD, List.getElem?_append_right, List.getElem?_eq_getElem h]

theorem buf_map_left {α : Type} {l : List α} {f : α → ℝ} {m : List ℝ} {k : Nat} {q : α} (h : l[k]? = some q) : buf (l.map f ++ m) k = f q := by
  obtain ⟨a, e⟩ := List.getElem?_eq_some_iff.mp h
  rw [buf_append_left (by simpa using a)]
  simp [e]

theorem buf_map_right {α : Type} {l : List α} {f : α → ℝ} {m : List ℝ} {k : Nat} {q : α} (h : l[k]? = some q) :
    buf (m ++ l.map f) (m.length + k) = f q := by
  obtain ⟨a, e⟩ := List.getElem?_eq_some_iff.mp h
  rw [buf_append_right (by simpa using a)]
  simp [e]

/-- A list is the concatenation of the values that its buffer has at the positions of two lists of that total length. -/
theorem list_of_buf {α β : Type} (l : List α) (m : List β) (c : List ℝ) (hc : c.length = l.length + m.length) {f : α → ℝ} {g : β → ℝ}
    (hf : ∀ k q, l[k]? = some q → f q = buf c k) (hg : ∀ k q, m[k]? = some q → g q = buf c (l.length + k)) : l.map f ++ m.map g = c := by
  apply List.ext_getElem
  · simp [hc]
  · intro k h1 h2
    have hb : buf c k = c[k] := by simp [buf, List.getD_eq_getElem?_getD, List.getElem?_eq_getElem h2]
    by_cases hk : k < l.length
    · rw [List.getElem_append_left (by simpa using hk), List.getElem_map, hf k _ (List.getElem?_eq_getElem hk), hb]
    · have hk' : k - l.length < m.length := by omega
      rw [List.getElem_append_right (by simpa using hk), List.getElem_map]
      simp only [List.length_map]
      rw [hg (k - l.length) _ (List.getElem?_eq_getElem hk'), show l.length + (k - l.length) = k by omega, hb]

theorem dot_append {a b c d : List ℝ} (h : a.length = c.length) : dot (a ++ b) (c ++ d) = dot a c + dot b d := by
  unfold dot
  rw [List.zipWith_append h, List.sum_append]

theorem dot_map {α : Type} (l : List α) (f g : α → ℝ) : dot (l.map f) (l.map g) = (l.map fun q => f q * g q).sum := by
  unfold dot
  rw [List.zipWith_map, List.zipWith_self]

/-! ### Sums -/

theorem sum_range_list (n : Nat) (f : Nat → ℝ) : ((List.range n).map f).sum = ∑ i ∈ Finset.range n, f i := by
  rw [Finset.sum_range, ← List.sum_ofFn, List.ofFn_eq_map, ← List.map_coe_finRange_eq_range, List.map_map]
  rfl

theorem sum_pairs (p : Nat) (f : Nat × Nat → ℝ) :
    ((pairs p).map f).sum = ∑ q ∈ (Finset.range p ×ˢ Finset.range p).filter (fun q => q.1 < q.2), f q := by
  rw [← List.sum_toFinset f (nodup_pairs p)]
  apply Finset.sum_congr _ (fun _ _ => rfl)
  ext ⟨i, j⟩
  simp only [List.mem_toFinset, mem_pairs, Finset.mem_filter, Finset.mem_product, Finset.mem_range]
  omega

theorem sum_rest (n p : Nat) (f : Nat × Nat → ℝ) :
    ((rest n p).map f).sum = ∑ i ∈ Finset.range p, ∑ j ∈ Finset.Ico p n, f (i, j) := by
  rw [← List.sum_toFinset f (nodup_rest n p), ← Finset.sum_product]
  apply Finset.sum_congr _ (fun _ _ => rfl)
  ext ⟨i, j⟩
  simp only [List.mem_toFinset, mem_rest, Finset.mem_product, Finset.mem_range, Finset.mem_Ico]

/-- A sum over a square is the sum over the diagonal and over the pairs of transposed positions. -/
theorem sum_square (p : Nat) (f : Nat → Nat → ℝ) :
    ∑ i ∈ Finset.range p, ∑ j ∈ Finset.range p, f i j =
      ∑ i ∈ Finset.range p, f i i + ((pairs p).map fun q => f q.1 q.2 + f q.2 q.1).sum := by
  rw [sum_pairs, Finset.sum_add_distrib, ← Finset.sum_product']
  have hd : ∑ i ∈ Finset.range p, f i i = ∑ q ∈ (Finset.range p ×ˢ Finset.range p).filter (fun q => q.1 = q.2), f q.1 q.2 := by
    refine Finset.sum_nbij' (fun i => (i, i)) (fun q => q.1) ?_ ?_ ?_ ?_ ?_
    · intro i hi; simpa using hi
    · intro q hq; simp at hq; simpa using hq.1.1
    · intro i hi; rfl
    · rintro ⟨a, b⟩ hq; simp at hq; simp [hq.2]
    · intro i hi; rfl
  have hs : ∑ q ∈ (Finset.range p ×ˢ Finset.range p).filter (fun q => q.1 < q.2), f q.2 q.1 =
      ∑ q ∈ (Finset.range p ×ˢ Finset.range p).filter (fun q => q.2 < q.1), f q.1 q.2 := by
    refine Finset.sum_nbij' (fun q => (q.2, q.1)) (fun q => (q.2, q.1)) ?_ ?_ ?_ ?_ ?_
    · rintro ⟨a, b⟩ hq; simp at hq ⊢; omega
    · rintro ⟨a, b⟩ hq; simp at hq ⊢; omega
    · intro q hq; rfl
    · intro q hq; rfl
    · intro q hq; rfl
  rw [hd, hs, ← Finset.sum_filter_add_sum_filter_not _ (fun q : Nat × Nat => q.1 = q.2), add_right_inj,
    ← Finset.sum_filter_add_sum_filter_not _ (fun q : Nat × Nat => q.1 < q.2)]
  congr 1
  · apply Finset.sum_congr _ (fun _ _ => rfl)
    ext ⟨a, b⟩
    simp only [Finset.mem_filter, Finset.mem_product, Finset.mem_range]
    omega
  · apply Finset.sum_congr _ (fun _ _ => rfl)
    ext ⟨a, b⟩
    simp only [Finset.mem_filter, Finset.mem_product, Finset.mem_range]
    omega

/-- The Frobenius product as a sum over natural indices. -/
theorem frob_range {n p : Nat} (A B : Matrix (Fin n) (Fin p) ℝ) :
    frob A B = ∑ j ∈ Finset.range p, ∑ i ∈ Finset.range n, flat A (i + j * n) * flat B (i + j * n) := by
  unfold frob
  rw [Finset.sum_comm, Finset.sum_range]
  refine Finset.sum_congr rfl fun j _ => ?_
  rw [Finset.sum_range]
  refine Finset.sum_congr rfl fun i _ => ?_
  rw [flat_apply A i.2 j.2, flat_apply B i.2 j.2]

/-- The Frobenius product split into the square on top and the remaining rows. -/
theorem frob_split {n p : Nat} (hp : p ≤ n) (A B : Matrix (Fin n) (Fin p) ℝ) :
    frob A B = ∑ j ∈ Finset.range p, ∑ i ∈ Finset.range p, flat A (i + j * n) * flat B (i + j * n) +
      ((rest n p).map fun q => flat A (q.2 + q.1 * n) * flat B (q.2 + q.1 * n)).sum := by
  rw [frob_range, sum_rest, ← Finset.sum_add_distrib]
  refine Finset.sum_congr rfl fun j _ => ?_
  rw [Finset.range_eq_Ico, Finset.range_eq_Ico, Finset.sum_Ico_consecutive _ (Nat.zero_le _) hp]

/-! ### What the writes leave in memory -/

section writes
variable {n p : Nat} (junk c : Nat → ℝ)

theorem mem_skewExtr {a : Nat} {v : ℝ} : (a, v) ∈ skewExtrWrites n p c ↔
    (∃ i < p, a = i + i * n ∧ v = 0) ∨
    (∃ i j k, (pairs p)[k]? = some (i, j) ∧ ((a = j + i * n ∧ v = c k / r2) ∨ (a = i + j * n ∧ v = -(c k / r2)))) ∨
    (∃ i j k, (rest n p)[k]? = some (i, j) ∧ a = j + i * n ∧ v = c ((pairs p).length + k)) := by
  simp only [skewExtrWrites, List.mem_append, mem_forN, List.mem_singleton, List.mem_flatMap, List.mem_map, List.mem_cons,
    List.not_mem_nil, or_false, Prod.mk.injEq, Prod.exists, List.mk_mem_zipIdx_iff_le_and_getElem?_sub, Nat.zero_le, true_and, Nat.sub_zero, or_assoc]
  refine or_congr Iff.rfl (or_congr ?_ ?_)
  · rfl
  · constructor
    · rintro ⟨i, j, k, ⟨h1, h2⟩, rfl, rfl⟩
      exact ⟨i, j, k - (pairs p).length, h2, rfl, by rw [Nat.add_sub_cancel' h1]⟩
    · rintro ⟨i, j, k, h, rfl, rfl⟩
      exact ⟨i, j, (pairs p).length + k, ⟨by omega, by rw [Nat.add_sub_cancel_left]; exact h⟩, rfl, rfl⟩

theorem skewExtr_diag (hp : p ≤ n) {i : Nat} (hi : i < p) : writeAll junk (skewExtrWrites n p c) (i + i * n) = 0 := by
  refine writeAll_of_mem _ _ _ _ ((mem_skewExtr c).mpr (Or.inl ⟨i, hi, rfl, rfl⟩)) fun v hv => ?_
  rcases (mem_skewExtr c).mp hv with ⟨_, _, _, h⟩ | ⟨a, b, k, hk, ⟨h, _⟩ | ⟨h, _⟩⟩ | ⟨a, b, k, hk, h, _⟩
  · exact h
  · have := idx_of_pair hk
    have := colMajor_inj (by omega) (by omega) h
    omega
  · have := idx_of_pair hk
    have := colMajor_inj (by omega) (by omega) h
    omega
  · have := idx_of_rest hk
    have := colMajor_inj (by omega) (by omega) h
    omega

theorem skewExtr_lower (hp : p ≤ n) {i j k : Nat} (hk : (pairs p)[k]? = some (i, j)) :
    writeAll junk (skewExtrWrites n p c) (j + i * n) = c k / r2 := by
  have hij := idx_of_pair hk
  refine writeAll_of_mem _ _ _ _ ((mem_skewExtr c).mpr (Or.inr (Or.inl ⟨i, j, k, hk, Or.inl ⟨rfl, rfl⟩⟩))) fun v hv => ?_
  rcases (mem_skewExtr c).mp hv with ⟨a, ha, h, _⟩ | ⟨a, b, k', hk', ⟨h, h'⟩ | ⟨h, _⟩⟩ | ⟨a, b, k', hk', h, _⟩
  · have := colMajor_inj (by omega) (by omega) h
    omega
  · have := idx_of_pair hk'
    obtain ⟨rfl, rfl⟩ := colMajor_inj (by omega) (by omega) h
    rw [h', index_unique (nodup_pairs p) hk' hk]
  · have := idx_of_pair hk'
    have := colMajor_inj (by omega) (by omega) h
    omega
  · have := idx_of_rest hk'
    have := colMajor_inj (by omega) (by omega) h
    omega

theorem skewExtr_upper (hp : p ≤ n) {i j k : Nat} (hk : (pairs p)[k]? = some (i, j)) :
    writeAll junk (skewExtrWrites n p c) (i + j * n) = -(c k / r2) := by
  have hij := idx_of_pair hk
  refine writeAll_of_mem _ _ _ _ ((mem_skewExtr c).mpr (Or.inr (Or.inl ⟨i, j, k, hk, Or.inr ⟨rfl, rfl⟩⟩))) fun v hv => ?_
  rcases (mem_skewExtr c).mp hv with ⟨a, ha, h, _⟩ | ⟨a, b, k', hk', ⟨h, _⟩ | ⟨h, h'⟩⟩ | ⟨a, b, k', hk', h, _⟩
  · have := colMajor_inj (by omega) (by omega) h
    omega
  · have := idx_of_pair hk'
    have := colMajor_inj (by omega) (by omega) h
    omega
  · have := idx_of_pair hk'
    obtain ⟨rfl, rfl⟩ := colMajor_inj (by omega) (by omega) h
    rw [h', index_unique (nodup_pairs p) hk' hk]
  · have := idx_of_rest hk'
    have := colMajor_inj (by omega) (by omega) h
    omega

theorem skewExtr_rest (hp : p ≤ n) {i j k : Nat} (hk : (rest n p)[k]? = some (i, j)) :
    writeAll junk (skewExtrWrites n p c) (j + i * n) = c ((pairs p).length + k) := by
  have hij := idx_of_rest hk
  refine writeAll_of_mem _ _ _ _ ((mem_skewExtr c).mpr (Or.inr (Or.inr ⟨i, j, k, hk, rfl, rfl⟩))) fun v hv => ?_
  rcases (mem_skewExtr c).mp hv with ⟨a, ha, h, _⟩ | ⟨a, b, k', hk', ⟨h, h'⟩ | ⟨h, _⟩⟩ | ⟨a, b, k', hk', h, h'⟩
  · have := colMajor_inj (by omega) (by omega) h
    omega
  · have := idx_of_pair hk'
    have := colMajor_inj (by omega) (by omega) h
    omega
  · have := idx_of_pair hk'
    have := colMajor_inj (by omega) (by omega) h
    omega
  · have := idx_of_rest hk'
    obtain ⟨rfl, rfl⟩ := colMajor_inj (by omega) (by omega) h
    rw [h', index_unique (nodup_rest n p) hk' hk]

theorem mem_restExtr {a : Nat} {v : ℝ} : (a, v) ∈ restExtrWrites n p c ↔
    (∃ i < p, ∃ j < p, a = j + i * n ∧ v = 0) ∨ (∃ i j k, (rest n p)[k]? = some (i, j) ∧ a = j + i * n ∧ v = c k) := by
  simp only [restExtrWrites, List.mem_append, mem_forN, List.mem_singleton, List.mem_map, Prod.mk.injEq, Prod.exists, List.mk_mem_zipIdx_iff_getElem?]
  simp only [eq_comm]

theorem restExtr_top (hp : p ≤ n) {i j : Nat} (hi : i < p) (hj : j < p) : writeAll junk (restExtrWrites n p c) (j + i * n) = 0 := by
  refine writeAll_of_mem _ _ _ _ ((mem_restExtr c).mpr (Or.inl ⟨i, hi, j, hj, rfl, rfl⟩)) fun v hv => ?_
  rcases (mem_restExtr c).mp hv with ⟨_, _, _, _, _, h⟩ | ⟨a, b, k, hk, h, _⟩
  · exact h
  · have := idx_of_rest hk
    have := colMajor_inj (by omega) (by omega) h
    omega

theorem restExtr_rest (hp : p ≤ n) {i j k : Nat} (hk : (rest n p)[k]? = some (i, j)) : writeAll junk (restExtrWrites n p c) (j + i * n) = c k := by
  have hij := idx_of_rest hk
  refine writeAll_of_mem _ _ _ _ ((mem_restExtr c).mpr (Or.inr ⟨i, j, k, hk, rfl, rfl⟩)) fun v hv => ?_
  rcases (mem_restExtr c).mp hv with ⟨_, _, _, _, h, _⟩ | ⟨a, b, k', hk', h, h'⟩
  · have := colMajor_inj (by omega) (by omega) h
    omega
  · have := idx_of_rest hk'
    obtain ⟨rfl, rfl⟩ := colMajor_inj (by omega) (by omega) h
    rw [h', index_unique (nodup_rest n p) hk' hk]

theorem mem_symExtr {a : Nat} {v : ℝ} : (a, v) ∈ symExtrWrites n c ↔
    (∃ i < n, a = i + i * n ∧ v = c i) ∨
    (∃ i j k, (pairs n)[k]? = some (i, j) ∧ ((a = j + i * n ∧ v = c (n + k) / r2) ∨ (a = i + j * n ∧ v = c (n + k) / r2))) := by
  simp only [symExtrWrites, List.mem_append, List.mem_flatMap, List.mem_map, List.mem_cons,
    List.not_mem_nil, or_false, Prod.mk.injEq, Prod.exists, List.mk_mem_zipIdx_iff_le_and_getElem?_sub, Nat.zero_le, true_and, Nat.sub_zero]
  refine or_congr ?_ ?_
  · constructor
    · rintro ⟨i, k, h, rfl, rfl⟩
      obtain ⟨a, e⟩ := List.getElem?_eq_some_iff.mp h
      simp only [List.length_range] at a
      simp only [List.getElem_range] at e
      exact ⟨i, by omega, rfl, by rw [e]⟩
    · rintro ⟨i, h, rfl, rfl⟩
      exact ⟨i, i, by simp [List.getElem?_range, h], rfl, rfl⟩
  · constructor
    · rintro ⟨i, j, k, ⟨h1, h2⟩, h3⟩
      exact ⟨i, j, k - n, h2, by rw [Nat.add_sub_cancel' h1]; exact h3⟩
    · rintro ⟨i, j, k, h, h3⟩
      exact ⟨i, j, n + k, ⟨by omega, by rw [Nat.add_sub_cancel_left]; exact h⟩, h3⟩

theorem symExtr_diag {i : Nat} (hi : i < n) : writeAll junk (symExtrWrites n c) (i + i * n) = c i := by
  refine writeAll_of_mem _ _ _ _ ((mem_symExtr c).mpr (Or.inl ⟨i, hi, rfl, rfl⟩)) fun v hv => ?_
  rcases (mem_symExtr c).mp hv with ⟨a, ha, h, h'⟩ | ⟨a, b, k, hk, ⟨h, _⟩ | ⟨h, _⟩⟩
  · have := colMajor_inj hi ha h
    rw [h', this.1]
  · have := idx_of_pair hk
    have := colMajor_inj (by omega) (by omega) h
    omega
  · have := idx_of_pair hk
    have := colMajor_inj (by omega) (by omega) h
    omega

theorem symExtr_pair {i j k : Nat} (hk : (pairs n)[k]? = some (i, j)) :
    writeAll junk (symExtrWrites n c) (j + i * n) = c (n + k) / r2 ∧ writeAll junk (symExtrWrites n c) (i + j * n) = c (n + k) / r2 := by
  have hij := idx_of_pair hk
  constructor
  · refine writeAll_of_mem _ _ _ _ ((mem_symExtr c).mpr (Or.inr ⟨i, j, k, hk, Or.inl ⟨rfl, rfl⟩⟩)) fun v hv => ?_
    rcases (mem_symExtr c).mp hv with ⟨a, ha, h, _⟩ | ⟨a, b, k', hk', ⟨h, h'⟩ | ⟨h, _⟩⟩
    · have := colMajor_inj (by omega) (by omega) h
      omega
    · have := idx_of_pair hk'
      obtain ⟨rfl, rfl⟩ := colMajor_inj (by omega) (by omega) h
      rw [h', index_unique (nodup_pairs n) hk' hk]
    · have := idx_of_pair hk'
      have := colMajor_inj (by omega) (by omega) h
      omega
  · refine writeAll_of_mem _ _ _ _ ((mem_symExtr c).mpr (Or.inr ⟨i, j, k, hk, Or.inr ⟨rfl, rfl⟩⟩)) fun v hv => ?_
    rcases (mem_symExtr c).mp hv with ⟨a, ha, h, _⟩ | ⟨a, b, k', hk', ⟨h, _⟩ | ⟨h, h'⟩⟩
    · have := colMajor_inj (by omega) (by omega) h
      omega
    · have := idx_of_pair hk'
      have := colMajor_inj (by omega) (by omega) h
      omega
    · have := idx_of_pair hk'
      obtain ⟨rfl, rfl⟩ := colMajor_inj (by omega) (by omega) h
      rw [h', index_unique (nodup_pairs n) hk' hk]

end writes

end Verif.Intr
