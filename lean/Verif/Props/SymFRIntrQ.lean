import Verif.Manifold.SymFRIntrQ
import Verif.Props.SymFRIntr

/-!
# Intrinsic coordinates of symmetric fixed-rank matrices, third metric: properties C37, C46
-/

set_option linter.unusedSectionVars false
set_option linter.unusedVariables false
set_option linter.unusedSimpArgs false

namespace Verif.SymFR

open Matrix Verif.Elem Verif.Intr Verif.CMat Verif.Mat Verif.Q2F

variable {n p : Nat}

/-! ## Auxiliary lemmas: the triangle loop -/

theorem mem_tri {i j : Nat} : (i, j) ∈ tri p ↔ i ≤ j ∧ j < p := by
  simp only [tri, List.mem_flatMap, List.mem_range, List.mem_map, Prod.mk.injEq]
  constructor
  · rintro ⟨a, h1, d, h2, rfl, rfl⟩; omega
  · rintro ⟨h1, h2⟩; exact ⟨i, by omega, j - i, by omega, rfl, by omega⟩

theorem nodup_tri (p : Nat) : (tri p).Nodup := by
  have := nodup_rows (f := fun i => (List.range (p - i)).map fun d => i + d) (fun i => List.nodup_range.map (fun a b h => by simpa using h)) p
  simpa [tri, List.map_map, Function.comp_def] using this

theorem idx_of_tri {k i j : Nat} (h : (tri p)[k]? = some (i, j)) : i ≤ j ∧ j < p := mem_tri.mp (List.mem_of_getElem? h)

theorem length_tri (p : Nat) : (tri p).length = p * (p + 1) / 2 := by
  rw [← length_sym]
  have h : (tri p).Perm ((List.range p).map (fun i => (i, i)) ++ pairs p) := by
    rw [List.perm_ext_iff_of_nodup (nodup_tri p)]
    · rintro ⟨i, j⟩
      rw [mem_tri, List.mem_append, mem_pairs, List.mem_map]
      simp only [List.mem_range, Prod.mk.injEq]
      constructor
      · rintro ⟨h1, h2⟩
        rcases Nat.eq_or_lt_of_le h1 with e | e
        · exact Or.inl ⟨i, by omega, rfl, e⟩
        · exact Or.inr ⟨e, h2⟩
      · rintro (⟨a, h, rfl, rfl⟩ | ⟨h1, h2⟩)
        · exact ⟨le_rfl, h⟩
        · omega
    · rw [List.nodup_append]
      refine ⟨List.nodup_range.map (fun a b h => by simpa using h), nodup_pairs p, ?_⟩
      rintro ⟨i, j⟩ h ⟨a, b⟩ h' e
      rw [List.mem_map] at h
      obtain ⟨c, -, e'⟩ := h
      rw [mem_pairs] at h'
      simp only [Prod.mk.injEq] at e e'
      omega
  rw [h.length_eq]
  simp

/-- The number of the round of an entry of the lower triangle. -/
theorem tri_index {i j : Nat} (hij : i ≤ j) (hj : j < p) : ∃ k : Fin (dimT p), triAt p k = (i, j) := by
  obtain ⟨k, hk⟩ := index_exists (mem_tri.mpr ⟨hij, hj⟩)
  obtain ⟨a, b⟩ := List.getElem?_eq_some_iff.mp hk
  exact ⟨⟨k, a⟩, b⟩

theorem triAt_get (k : Fin (dimT p)) : (tri p)[k.1]? = some (triAt p k) := List.getElem?_eq_getElem k.2

theorem triAt_inj {k l : Fin (dimT p)} (h : triAt p k = triAt p l) : k = l :=
  Fin.ext (index_unique (nodup_tri p) (triAt_get k) (h ▸ triAt_get l))

theorem triAt_lt (k : Fin (dimT p)) : (triAt p k).1 ≤ (triAt p k).2 ∧ (triAt p k).2 < p := idx_of_tri (triAt_get k)

/-! ## Auxiliary lemmas: symmetric matrices from their lower triangle -/

/-- The symmetric matrix with the given lower triangle. -/
def symOf (c : Fin (dimT p) → ℝ) : Matrix (Fin p) (Fin p) ℝ := ∑ k, c k • symUnit p (triAt p k)

theorem symOf_apply (c : Fin (dimT p) → ℝ) (k : Fin (dimT p)) (a b : Fin p) (h : (a.1 = (triAt p k).2 ∧ b.1 = (triAt p k).1) ∨ (a.1 = (triAt p k).1 ∧ b.1 = (triAt p k).2)) :
    symOf c a b = c k := by
  rw [symOf, Matrix.sum_apply, Finset.sum_eq_single k]
  · rw [Matrix.smul_apply, symUnit, if_pos h, smul_eq_mul, mul_one]
  · intro l _ hl
    rw [Matrix.smul_apply, symUnit, if_neg, smul_zero]
    intro h'
    apply hl
    apply triAt_inj
    have h1 := triAt_lt k
    have h2 := triAt_lt l
    ext
    · omega
    · omega
  · simp

theorem symOf_sym (c : Fin (dimT p) → ℝ) : (symOf c)ᵀ = symOf c := by
  ext a b
  rw [transpose_apply]
  rcases Nat.le_total a.1 b.1 with h | h
  · obtain ⟨k, hk⟩ := tri_index h b.2
    rw [symOf_apply c k b a (Or.inl (by rw [hk]; exact ⟨rfl, rfl⟩)), symOf_apply c k a b (Or.inr (by rw [hk]; exact ⟨rfl, rfl⟩))]
  · obtain ⟨k, hk⟩ := tri_index h a.2
    rw [symOf_apply c k b a (Or.inr (by rw [hk]; exact ⟨rfl, rfl⟩)), symOf_apply c k a b (Or.inl (by rw [hk]; exact ⟨rfl, rfl⟩))]

theorem symOf_lower {S : Matrix (Fin p) (Fin p) ℝ} (hS : Sᵀ = S) : symOf (fun k => flat S ((triAt p k).2 + (triAt p k).1 * p)) = S := by
  have e : ∀ a b : Fin p, b.1 ≤ a.1 → symOf (fun k => flat S ((triAt p k).2 + (triAt p k).1 * p)) a b = S a b := by
    intro a b h
    obtain ⟨k, hk⟩ := tri_index h a.2
    rw [symOf_apply _ k a b (Or.inl (by rw [hk]; exact ⟨rfl, rfl⟩))]
    simp only [hk]
    rw [flat_apply S a.2 b.2]
  ext a b
  rcases Nat.le_total b.1 a.1 with h | h
  · exact e a b h
  · rw [← hS, transpose_apply, hS, ← symOf_sym, transpose_apply]; exact e b a h

theorem lower_symOf (c : Fin (dimT p) → ℝ) (k : Fin (dimT p)) : flat (symOf c) ((triAt p k).2 + (triAt p k).1 * p) = c k := by
  have := triAt_lt k
  rw [flat_apply (symOf c) (by omega) (by omega), symOf_apply c k _ _ (Or.inl ⟨rfl, rfl⟩)]

/-! ## Auxiliary lemmas: the basis -/

theorem basisB_mulVec (L : Matrix (Fin p) (Fin p) ℝ) (c : Fin (dimT p) → ℝ) (a : Fin (p * p)) : (basisB L *ᵥ c) a = flat (L⁻¹ * symOf c) a.1 := by
  have hp : 0 < p := Nat.pos_of_ne_zero fun h => by subst h; exact absurd a.2 (by simp)
  have h1 : a.1 % p < p := Nat.mod_lt _ hp
  have h2 : a.1 / p < p := Nat.div_lt_of_lt_mul a.2
  have h3 : a.1 % p + a.1 / p * p = a.1 := (by rw [Nat.mul_comm (a.1 / p) p]; exact Nat.mod_add_div a.1 p)
  have hf : ∀ M : Matrix (Fin p) (Fin p) ℝ, flat M a.1 = M ⟨a.1 % p, h1⟩ ⟨a.1 / p, h2⟩ := fun M => by
    conv_lhs => rw [← h3]
    exact flat_apply M h1 h2
  rw [hf, symOf, Matrix.mul_sum, Matrix.sum_apply, mulVec, dotProduct]
  refine Finset.sum_congr rfl fun k _ => ?_
  rw [basisB, hf, Matrix.mul_smul, Matrix.smul_apply, smul_eq_mul, mul_comm]

theorem sum_flat (A B : Matrix (Fin p) (Fin p) ℝ) : ∑ a : Fin (p * p), flat A a.1 * flat B a.1 = frob A B := by
  rw [frob_range, ← Fintype.sum_equiv finProdFinEquiv (fun q => flat A (finProdFinEquiv q).1 * flat B (finProdFinEquiv q).1) _ (fun _ => rfl), Fintype.sum_prod_type, Finset.sum_range]
  refine Finset.sum_congr rfl fun j _ => ?_
  rw [Finset.sum_range]
  refine Finset.sum_congr rfl fun i _ => ?_
  have : (finProdFinEquiv (j, i)).1 = i.1 + j.1 * p := by simp [finProdFinEquiv, Nat.mul_comm]
  rw [this]

theorem basis_dot (L : Matrix (Fin p) (Fin p) ℝ) (c d : Fin (dimT p) → ℝ) : c ⬝ᵥ (((basisB L)ᵀ * basisB L) *ᵥ d) = frob (L⁻¹ * symOf c) (L⁻¹ * symOf d) := by
  rw [← mulVec_mulVec, dotProduct_mulVec, vecMul_transpose, ← sum_flat]
  refine Finset.sum_congr rfl fun a _ => ?_
  rw [basisB_mulVec, basisB_mulVec]

theorem dim_le (p : Nat) : dimT p ≤ p * p := by
  rw [dimT, length_tri]
  have : p * (p + 1) ≤ 2 * (p * p) := by
    rcases p with _ | p
    · simp
    · nlinarith
  omega

theorem frob_self_zero {m q : Nat} {A : Matrix (Fin m) (Fin q) ℝ} (h : frob A A = 0) : A = 0 := by
  rw [← ip_real] at h
  exact ip_self_eq_zero.mp h

theorem basis_unit {L : Matrix (Fin p) (Fin p) ℝ} (hL : IsUnit L.det) : IsUnit ((basisB L)ᵀ * basisB L).det := by
  rw [← isUnit_iff_isUnit_det, ← mulVec_injective_iff_isUnit]
  refine (injective_iff_map_eq_zero (Matrix.mulVecLin ((basisB L)ᵀ * basisB L))).mpr fun v hv => ?_
  have h0 : ((basisB L)ᵀ * basisB L) *ᵥ v = 0 := hv
  have h1 := basis_dot L v v
  rw [h0, dotProduct_zero] at h1
  have h2 := frob_self_zero h1.symm
  have h3 : symOf v = 0 := by
    have := congrArg (fun M => L * M) h2
    simpa only [← Matrix.mul_assoc, mul_nonsing_inv _ hL, Matrix.one_mul, Matrix.mul_zero] using this
  funext k
  rw [← lower_symOf v k, h3]
  simp [flat]

/-! ## Auxiliary lemmas: the writes -/

theorem mem_writesQ {t c : Nat → ℝ} {a : Nat} {v : ℝ} : (a, v) ∈ writesQ n p t c ↔
    (∃ i j k, (tri p)[k]? = some (i, j) ∧ ((a = j + i * n ∨ a = i + j * n) ∧ v = t k)) ∨
    (∃ i j k, (rest n p)[k]? = some (i, j) ∧ a = j + i * n ∧ v = c ((tri p).length + k)) := by
  simp only [writesQ, List.mem_append, List.mem_map, List.mem_flatMap, List.mem_cons, List.not_mem_nil, or_false, Prod.mk.injEq, Prod.exists,
    List.mk_mem_zipIdx_iff_getElem?]
  refine or_congr ?_ ?_
  · constructor
    · rintro ⟨i, j, k, h, ⟨rfl, rfl⟩ | ⟨rfl, rfl⟩⟩
      · exact ⟨i, j, k, h, Or.inl rfl, rfl⟩
      · exact ⟨i, j, k, h, Or.inr rfl, rfl⟩
    · rintro ⟨i, j, k, h, rfl | rfl, rfl⟩
      · exact ⟨i, j, k, h, Or.inl ⟨rfl, rfl⟩⟩
      · exact ⟨i, j, k, h, Or.inr ⟨rfl, rfl⟩⟩
  · constructor
    · rintro ⟨i, j, k, h, rfl, rfl⟩; exact ⟨i, j, k, h, rfl, rfl⟩
    · rintro ⟨i, j, k, h, rfl, rfl⟩; exact ⟨i, j, k, h, rfl, rfl⟩

theorem writesQ_tri (hp : p ≤ n) (jk t c : Nat → ℝ) {i j k : Nat} (hk : (tri p)[k]? = some (i, j)) :
    writeAll jk (writesQ n p t c) (j + i * n) = t k ∧ writeAll jk (writesQ n p t c) (i + j * n) = t k := by
  have hij := idx_of_tri hk
  have main : ∀ A, (A = j + i * n ∨ A = i + j * n) → ∀ v, (A, v) ∈ writesQ n p t c → v = t k := by
    intro A hA v hv
    rcases mem_writesQ.mp hv with ⟨a, b, k', h, e, rfl⟩ | ⟨a, b, k', h, e, rfl⟩
    · have hab := idx_of_tri h
      have : a = i ∧ b = j := by
        rcases hA with rfl | rfl <;> rcases e with e | e <;> have := colMajor_inj (by omega) (by omega) e <;> omega
      obtain ⟨rfl, rfl⟩ := this
      rw [index_unique (nodup_tri p) hk h]
    · have hab := idx_of_rest h
      rcases hA with rfl | rfl <;> have := colMajor_inj (by omega) (by omega) e <;> omega
  exact ⟨writeAll_of_mem _ _ _ _ (mem_writesQ.mpr (Or.inl ⟨i, j, k, hk, Or.inl rfl, rfl⟩)) (main _ (Or.inl rfl)),
    writeAll_of_mem _ _ _ _ (mem_writesQ.mpr (Or.inl ⟨i, j, k, hk, Or.inr rfl, rfl⟩)) (main _ (Or.inr rfl))⟩

theorem writesQ_rest (hp : p ≤ n) (jk t c : Nat → ℝ) {i j k : Nat} (hk : (rest n p)[k]? = some (i, j)) :
    writeAll jk (writesQ n p t c) (j + i * n) = c ((tri p).length + k) := by
  have hij := idx_of_rest hk
  refine writeAll_of_mem _ _ _ _ (mem_writesQ.mpr (Or.inr ⟨i, j, k, hk, rfl, rfl⟩)) fun v hv => ?_
  rcases mem_writesQ.mp hv with ⟨a, b, k', h, e, rfl⟩ | ⟨a, b, k', h, e, rfl⟩
  · have hab := idx_of_tri h
    rcases e with e | e <;> have := colMajor_inj (by omega) (by omega) e <;> omega
  · have hab := idx_of_rest h
    obtain ⟨rfl, rfl⟩ := colMajor_inj (by omega) (by omega) e
    rw [index_unique (nodup_rest n p) hk h]

theorem topSq_writes (hp : p ≤ n) (jk c : Nat → ℝ) (t : Fin (dimT p) → ℝ) : topSq (unflat n p (writeAll jk (writesQ n p (vbuf t) c))) = symOf t := by
  have hv : ∀ k : Fin (dimT p), vbuf t k.1 = t k := fun k => by rw [vbuf, dif_pos k.2]
  ext a b
  have ha : a.1 < n := by omega
  rw [topSq, dif_pos ha]
  show writeAll jk _ (a.1 + b.1 * n) = _
  rcases Nat.le_total a.1 b.1 with h | h
  · obtain ⟨k, hk⟩ := tri_index h b.2
    rw [(writesQ_tri hp jk _ c (hk ▸ triAt_get k)).2, hv, symOf_apply t k a b (Or.inr (by rw [hk]; exact ⟨rfl, rfl⟩))]
  · obtain ⟨k, hk⟩ := tri_index h a.2
    rw [(writesQ_tri hp jk _ c (hk ▸ triAt_get k)).1, hv, symOf_apply t k a b (Or.inl (by rw [hk]; exact ⟨rfl, rfl⟩))]

theorem topSq_set (hp : p ≤ n) (A : Matrix (Fin n) (Fin p) ℝ) (T : Matrix (Fin p) (Fin p) ℝ) : topSq (setTop A T) = T := by
  ext a b
  have ha : a.1 < n := by omega
  rw [topSq, dif_pos ha, setTop, dif_pos a.2]

theorem flat_set_rest {A : Matrix (Fin n) (Fin p) ℝ} {T : Matrix (Fin p) (Fin p) ℝ} {i j : Nat} (hi : i < p) (hj : p ≤ j) (hjn : j < n) :
    flat (setTop A T) (j + i * n) = flat A (j + i * n) := by
  rw [flat_apply _ hjn hi, flat_apply _ hjn hi, setTop, dif_neg (by simpa using hj)]

theorem topSq_eq (hp : p ≤ n) (A : Matrix (Fin n) (Fin p) ℝ) : topSq A = (topI n p)ᵀ * A := by
  ext i j
  rw [top_mul A hp, topSq, dif_pos]

variable {x : Matrix (Fin n) (Fin p) ℝ} {h : Hou1 n p}

theorem tmpQ_eq (h : Hou1 n p) (η : Matrix (Fin n) (Fin p) ℝ) : tmpQ h η = (orthO h.Q h.R)ᵀ * η := by
  rw [tmpQ, scale_eq, orthO, transpose_mul, diagonal_transpose, Matrix.mul_assoc]

theorem tmpQ_back (hh : IsHou1 x h) (A : Matrix (Fin n) (Fin p) ℝ) : tmpQ h (h.Q * scaleRows (rowSigns h.R) A) = A := by
  rw [tmpQ_eq, scale_eq, ← Matrix.mul_assoc h.Q, ← orthO, ← Matrix.mul_assoc, orthO_orth hh, Matrix.one_mul]

theorem back_tmpQ (hh : IsHou1 x h) (η : Matrix (Fin n) (Fin p) ℝ) : h.Q * scaleRows (rowSigns h.R) (tmpQ h η) = η := by
  rw [tmpQ_eq, scale_eq, ← Matrix.mul_assoc h.Q, ← orthO, ← Matrix.mul_assoc, orthO_orth' hh, Matrix.one_mul]

theorem cross_eq (hp : p ≤ n) (hh : IsHou1 x h) (η : Matrix (Fin n) (Fin p) ℝ) : xᵀ * η = lowL h.R * topSq (tmpQ h η) := by
  rw [topSq_eq hp, tmpQ_eq]
  conv_lhs => rw [hhr_eq hp hh]
  simp only [transpose_mul, transpose_transpose, Matrix.mul_assoc]

theorem hor_top_Q (hp : p ≤ n) (hh : IsHou1 x h) (η : Matrix (Fin n) (Fin p) ℝ) : IsHor metricQ x η ↔ (lowL h.R * topSq (tmpQ h η))ᵀ = lowL h.R * topSq (tmpQ h η) := by
  rw [hor_Q, conjTranspose_eq_transpose_of_trivial, conjTranspose_eq_transpose_of_trivial, cross_eq hp hh]

theorem frob_top (hp : p ≤ n) (A B : Matrix (Fin n) (Fin p) ℝ) :
    frob A B = frob (topSq A) (topSq B) + ((rest n p).map fun q => flat A (q.2 + q.1 * n) * flat B (q.2 + q.1 * n)).sum := by
  rw [frob_split hp, frob_range]
  congr 1
  refine Finset.sum_congr rfl fun j hj => Finset.sum_congr rfl fun i hi => ?_
  rw [Finset.mem_range] at hi hj
  have hi' : i < n := by omega
  rw [flat_apply A hi' hj, flat_apply B hi' hj, flat_apply (topSq A) hi hj, flat_apply (topSq B) hi hj, topSq, dif_pos hi', topSq, dif_pos hi']

theorem dot_ofFn {d : Nat} (v w : Fin d → ℝ) : dot (List.ofFn v) (List.ofFn w) = v ⬝ᵥ w := by
  rw [List.ofFn_eq_map, List.ofFn_eq_map, dot_map, ← List.ofFn_eq_map, List.sum_ofFn]
  rfl

/-! ## C37 -/

/-- The Householder data of the basis belongs to the point. -/
abbrev IsBase (h : Hou1 n p) (QB : Matrix (Fin (p * p)) (Fin (p * p)) ℝ) (RB : Matrix (Fin (p * p)) (Fin (dimT p)) ℝ) : Prop := IsHHR (basisB (lowL h.R)) QB RB

/-- **C37 (third metric, dimension).** -/
theorem C37_sym_qeuc_dim (hp : p ≤ n) (h : Hou1 n p) (RB : Matrix (Fin (p * p)) (Fin (dimT p)) ℝ) (η : Matrix (Fin n) (Fin p) ℝ) :
    dimT p = p * (p + 1) / 2 ∧ (intrQ h RB η).1.length = n * p - p * (p - 1) / 2 := by
  refine ⟨length_tri p, ?_⟩
  rw [← dim_eq hp, intrQ, ← Nat.add_assoc, length_sym]
  simp only [List.length_append, List.length_ofFn, List.length_map, dimT, length_tri]

variable {QB : Matrix (Fin (p * p)) (Fin (p * p)) ℝ} {RB : Matrix (Fin (p * p)) (Fin (dimT p)) ℝ}

theorem coef_sym (hp : p ≤ n) (hh : IsHou1 x h) {η : Matrix (Fin n) (Fin p) ℝ} (hη : IsHor metricQ x η) : symOf (coefQ h η) = lowL h.R * topSq (tmpQ h η) :=
  symOf_lower ((hor_top_Q hp hh η).mp hη)

/-- **C37 (third metric, isometry).** On horizontal vectors the inner product of the coordinates is the metric. -/
theorem C37_sym_qeuc_isometry (hp : p ≤ n) (hx : IsPt x) (hh : IsHou1 x h) (hB : IsBase h QB RB) {η ξ : Matrix (Fin n) (Fin p) ℝ} (hη : IsHor metricQ x η) (hξ : IsHor metricQ x ξ) :
    dot (intrQ h RB η).1 (intrQ h RB ξ).1 = metricQ x η ξ := by
  have u := low_unit1 hp hx hh
  have hc : ∀ ζ, IsHor metricQ x ζ → (lowL h.R)⁻¹ * symOf (coefQ h ζ) = topSq (tmpQ h ζ) := by
    intro ζ hζ
    rw [coef_sym hp hh hζ, ← Matrix.mul_assoc, nonsing_inv_mul _ u, Matrix.one_mul]
  have e : frob (tmpQ h η) (tmpQ h ξ) = frob η ξ := by
    rw [tmpQ_eq, tmpQ_eq, frob_mul_left, transpose_transpose, ← Matrix.mul_assoc, orthO_orth' hh, Matrix.one_mul]
  rw [metricQ, ip_real, ← e, frob_top hp, intrQ, intrQ, dot_append (by simp), dot_map, dot_ofFn, ← hc η hη, ← hc ξ hξ, ← basis_dot, ← gram_low (dim_le p) hB]
  congr 1
  rw [← mulVec_mulVec, dotProduct_mulVec (coefQ h η), ← mulVec_transpose]

theorem base_unit (hp : p ≤ n) (hx : IsPt x) (hh : IsHou1 x h) (hB : IsBase h QB RB) : IsUnit ((lowL RB)ᵀ).det := by
  rw [det_transpose]
  exact low_unit (dim_le p) hB (basis_unit (low_unit1 hp hx hh))

/-- **C37 (third metric, extrinsic → intrinsic → extrinsic).** Horizontal vectors come back when the field stored by the conversion is still there. -/
theorem C37_sym_qeuc_extr_intr (hp : p ≤ n) (hx : IsPt x) (hh : IsHou1 x h) (hB : IsBase h QB RB) (jk : Nat → ℝ) {η : Matrix (Fin n) (Fin p) ℝ} (hη : IsHor metricQ x η) :
    extrQ jk h (some (intrQ h RB η).2) (intrQ h RB η).1 = some η := by
  have u := low_unit1 hp hx hh
  have uB := base_unit hp hx hh hB
  set c := (intrQ h RB η).1 with hc
  have b1 : (fun k : Fin (dimT p) => buf c k.1) = (lowL RB)ᵀ *ᵥ coefQ h η := by
    funext k
    rw [hc, intrQ, buf_append_left (by simp)]
    simp
  have b2 : ∀ i j k, (rest n p)[k]? = some (i, j) → buf c ((tri p).length + k) = flat (tmpQ h η) (j + i * n) := by
    intro i j k hk
    have := buf_map_right (f := fun q => flat (tmpQ h η) (q.2 + q.1 * n)) (m := List.ofFn ((lowL RB)ᵀ *ᵥ coefQ h η)) hk
    rw [List.length_ofFn] at this
    exact this
  have ht : (lowL RB)ᵀ⁻¹ *ᵥ ((lowL RB)ᵀ *ᵥ coefQ h η) = coefQ h η := by
    rw [mulVec_mulVec, nonsing_inv_mul _ uB, one_mulVec]
  show some _ = some η
  congr 1
  show h.Q * scaleRows (rowSigns h.R) (setTop _ _) = η
  have e2 : (intrQ h RB η).2 = lowL RB := rfl
  simp only [e2, b1, ht]
  rw [topSq_writes hp]
  have : setTop (unflat n p (writeAll jk (writesQ n p (vbuf (coefQ h η)) (buf c)))) ((lowL h.R)⁻¹ * symOf (coefQ h η)) = tmpQ h η := by
    rw [coef_sym hp hh hη, ← Matrix.mul_assoc, nonsing_inv_mul _ u, Matrix.one_mul]
    ext i j
    by_cases hi : i.1 < p
    · rw [setTop, dif_pos hi, topSq, dif_pos i.2]
    · rw [setTop, dif_neg hi]
      obtain ⟨k, hk⟩ := index_exists (mem_rest.mpr ⟨j.2, not_lt.mp hi, i.2⟩)
      show writeAll jk _ (i.1 + j.1 * n) = _
      rw [writesQ_rest hp _ _ _ hk, b2 _ _ _ hk, flat_apply _ i.2 j.2]
  rw [this, back_tmpQ hh]

/-- **C37 (third metric, intrinsic → extrinsic → intrinsic).** With the field stored at this point, the extrinsic vector is horizontal and its coordinates are the given ones. -/
theorem C37_sym_qeuc_intr_extr (hp : p ≤ n) (hx : IsPt x) (hh : IsHou1 x h) (hB : IsBase h QB RB) (jk : Nat → ℝ) (c : List ℝ) (hc : c.length = n * p - p * (p - 1) / 2) :
    ∃ η, extrQ jk h (some (lowL RB)) c = some η ∧ IsHor metricQ x η ∧ (intrQ h RB η).1 = c := by
  have u := low_unit1 hp hx hh
  have uB := base_unit hp hx hh hB
  have hc' : c.length = dimT p + (rest n p).length := by
    rw [hc, ← dim_eq hp, ← Nat.add_assoc, length_sym, dimT, length_tri]
  set t : Fin (dimT p) → ℝ := (lowL RB)ᵀ⁻¹ *ᵥ (fun k : Fin (dimT p) => buf c k.1) with ht
  set A := unflat n p (writeAll jk (writesQ n p (vbuf t) (buf c))) with hA
  refine ⟨h.Q * scaleRows (rowSigns h.R) (setTop A ((lowL h.R)⁻¹ * topSq A)), rfl, ?_, ?_⟩
  · rw [hor_top_Q hp hh, tmpQ_back hh, topSq_set hp, ← Matrix.mul_assoc, mul_nonsing_inv _ u, Matrix.one_mul, hA, topSq_writes hp, symOf_sym]
  · have e1 : coefQ h (h.Q * scaleRows (rowSigns h.R) (setTop A ((lowL h.R)⁻¹ * topSq A))) = t := by
      funext k
      rw [coefQ, tmpQ_back hh, topSq_set hp, ← Matrix.mul_assoc, mul_nonsing_inv _ u, Matrix.one_mul, hA, topSq_writes hp, lower_symOf]
    have e2 : (lowL RB)ᵀ *ᵥ t = fun k : Fin (dimT p) => buf c k.1 := by rw [ht, mulVec_mulVec, mul_nonsing_inv _ uB, one_mulVec]
    show List.ofFn ((lowL RB)ᵀ *ᵥ coefQ h _) ++ (rest n p).map (fun q => flat (tmpQ h _) (q.2 + q.1 * n)) = c
    rw [e1, e2, tmpQ_back hh, List.ofFn_eq_map]
    refine list_of_buf _ _ c (by simpa using hc') ?_ ?_
    · intro k q hk
      obtain ⟨a, b⟩ := List.getElem?_eq_some_iff.mp hk
      rw [← b]; simp
    · rintro k ⟨i, j⟩ hk
      have := idx_of_rest hk
      simp only []
      rw [flat_set_rest this.1 this.2.1 this.2.2, hA, flat_unflat _ this.2.2 this.1, writesQ_rest hp _ _ _ hk, List.length_finRange]
      rfl

/-- **C46 (third metric, transport by parallelisation).** If the field is present at both points the transport is an isometry onto horizontal vectors and is undone by the transport back. -/
theorem C46_sym_transport_qeuc (hp : p ≤ n) {y : Matrix (Fin n) (Fin p) ℝ} {k : Hou1 n p} {QC : Matrix (Fin (p * p)) (Fin (p * p)) ℝ} {RC : Matrix (Fin (p * p)) (Fin (dimT p)) ℝ}
    (hx : IsPt x) (hh : IsHou1 x h) (hB : IsBase h QB RB) (hy : IsPt y) (hk : IsHou1 y k) (hC : IsBase k QC RC) (jk : Nat → ℝ)
    {η ξ : Matrix (Fin n) (Fin p) ℝ} (hη : IsHor metricQ x η) (hξ : IsHor metricQ x ξ) : ∃ η' ξ', extrQ jk k (some (lowL RC)) (intrQ h RB η).1 = some η' ∧
      extrQ jk k (some (lowL RC)) (intrQ h RB ξ).1 = some ξ' ∧ IsHor metricQ y ξ' ∧ metricQ y η' ξ' = metricQ x η ξ ∧
      extrQ jk h (some (lowL RB)) (intrQ k RC ξ').1 = some ξ := by
  obtain ⟨η', a1, a2, a3⟩ := C37_sym_qeuc_intr_extr hp hy hk hC jk _ (C37_sym_qeuc_dim hp h RB η).2
  obtain ⟨ξ', b1, b2, b3⟩ := C37_sym_qeuc_intr_extr hp hy hk hC jk _ (C37_sym_qeuc_dim hp h RB ξ).2
  refine ⟨η', ξ', a1, b1, b2, ?_, ?_⟩
  · rw [← C37_sym_qeuc_isometry hp hy hk hC a2 b2, a3, b3, C37_sym_qeuc_isometry hp hx hh hB hη hξ]
  · rw [b3]
    exact C37_sym_qeuc_extr_intr hp hx hh hB jk hξ

/-! ## Examples -/

/-- A point with one column. -/
def xCol : Matrix (Fin 2) (Fin 1) ℝ := !![2; 0]

/-- The hypotheses hold: a point of two rows and one column, its Householder data, the data of the basis, and a horizontal vector. -/
example : ∃ (h : Hou1 2 1) (QB : Matrix (Fin (1 * 1)) (Fin (1 * 1)) ℝ) (RB : Matrix (Fin (1 * 1)) (Fin (dimT 1)) ℝ) (η : Matrix (Fin 2) (Fin 1) ℝ),
    IsPt xCol ∧ IsHou1 xCol h ∧ IsBase h QB RB ∧ IsHor metricQ xCol η ∧ η ≠ 0 := by
  refine ⟨⟨1, xCol⟩, 1, basisB (lowL xCol), !![1; 3], ?_, ⟨by simp, ?_⟩, ⟨by simp, ?_⟩, ?_, ?_⟩
  · simp [IsPt, xCol, Matrix.det_fin_one, Matrix.mul_apply]
  · ext i j
    fin_cases i <;> fin_cases j <;> simp [upper, xCol]
  · ext i j
    have hi : i.1 ≤ j.1 := by have := i.2; omega
    rw [Matrix.one_mul, upper, if_pos hi]
  · rw [hor_Q, conjTranspose_eq_transpose_of_trivial]
    ext i j
    fin_cases i; fin_cases j; rfl
  · intro e
    have := congrFun (congrFun e 0) 0
    simp at this

end Verif.SymFR
