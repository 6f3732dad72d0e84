import Verif.Elem.DenseLemmas
import Mathlib.Tactic.FieldSimp
import Mathlib.Tactic.NormNum
import Mathlib.Data.Matrix.Mul

/-!
# C86, C87: arithmetic of dense elements

An element denotes an array of numbers: `val x q` is number `q` in storage order, `ent x i j` the number in row `i` and column `j` of the first slice. The
theorems say what the operations do to these numbers, for real and complex elements alike.
-/

namespace Verif.Dense

open Verif.Elem

/-! ## What an element denotes -/

/-- Number `q` of the array. -/
noncomputable def val (x : El) (q : Nat) : ℂ := if x.cplx then ⟨x.get (2 * q), x.get (2 * q + 1)⟩ else (x.get q : ℂ)

/-- The number of numbers. -/
def count (x : El) : Nat := if x.cplx then x.len / 2 else x.len

/-- The number in row `i` and column `j` (of the first slice), column-major. -/
noncomputable def ent (x : El) (i j : Nat) : ℂ := val x (i + j * x.row)

/-- Elements made by the constructors: complex ones have an even `size[0]`. -/
def Valid (x : El) : Prop := x.cplx = true → Even x.s0

theorem valid_mk (c : Bool) (r l n : Nat) (a : Nat → ℝ) : Valid (mk c r l n a) := by
  intro h; simp only [mk] at h ⊢; rw [if_pos h]; exact even_two_mul r

theorem row_mk (c : Bool) (r l n : Nat) (a : Nat → ℝ) : (mk c r l n a).row = r := by
  cases c <;> simp [mk, El.row]

theorem val_real {x : El} (h : x.cplx = false) (q : Nat) : val x q = (x.get q : ℂ) := by simp [val, h]

theorem val_cplx {x : El} (h : x.cplx = true) (q : Nat) : val x q = cx x.get q := by simp [val, h, cx]

theorem sval_real {c : Bool} {s0 s1 s2 : Nat} {g : Nat → ℝ} (h : c = false) (q : Nat) : val ⟨c, s0, s1, s2, g⟩ q = (g q : ℂ) := val_real h q

theorem sval_cplx {c : Bool} {s0 s1 s2 : Nat} {g : Nat → ℝ} (h : c = true) (q : Nat) : val ⟨c, s0, s1, s2, g⟩ q = cx g q := val_cplx h q

theorem srow (x : El) (g : Nat → ℝ) : El.row ⟨x.cplx, x.s0, x.s1, x.s2, g⟩ = x.row := rfl

theorem len_even {x : El} (hx : Valid x) (h : x.cplx = true) : Even x.len := by
  have := hx h
  exact (this.mul_right _).mul_right _

theorem s0_row {x : El} (hx : Valid x) (h : x.cplx = true) : x.s0 = 2 * x.row := by
  have := hx h
  rw [El.row, if_pos h]
  obtain ⟨k, hk⟩ := this; omega

theorem s0_row_real {x : El} (h : x.cplx = false) : x.s0 = x.row := by simp [El.row, h]

theorem count_eq {x : El} (hx : Valid x) : count x = x.row * x.col * x.num := by
  rcases hc : x.cplx with _ | _
  · simp [count, hc, El.len, El.row, El.col, El.num]
  · have := s0_row hx hc
    simp only [count, hc, if_true, El.len, this, El.col, El.num]
    rw [show 2 * x.row * x.s1 * x.s2 = 2 * (x.row * x.s1 * x.s2) by ring]; omega

theorem two_count {x : El} (hx : Valid x) (h : x.cplx = true) : 2 * count x = x.len := by
  obtain ⟨k, hk⟩ := len_even hx h
  simp only [count, h, if_true]; omega

/-! ## Sums and multiples -/

theorem axpy_val {x y : El} (hy : Valid y) (hc : x.cplx = y.cplx) (c : ℝ) {q : Nat} (hq : q < count y) :
    val { y with get := axpy y.len c x.get y.get } q = c * val x q + val y q := by
  rcases h : y.cplx with _ | _
  · rw [val_real (hc.trans h), val_real h, sval_real rfl, (axpy_at c x.get y.get).1 q (by simpa [count, h] using hq)]
    push_cast; rfl
  · have h2 := two_count hy h
    rw [val_cplx (hc.trans h), val_cplx h, sval_cplx rfl]
    apply Complex.ext
    · simp only [cx]; rw [(axpy_at c x.get y.get).1 _ (by omega)]; simp
    · simp only [cx]; rw [(axpy_at c x.get y.get).1 _ (by omega)]; simp

/-- **C86.** Sum and difference of two elements of the same kind, number by number. -/
theorem C86_add_sub {x y : El} (hx : Valid x) (hy : Valid y) (hc : x.cplx = y.cplx) :
    (∀ z, add x y = some z → ∀ q < count z, val z q = val x q + val y q) ∧ (∀ z, sub x y = some z → ∀ q < count z, val z q = val x q - val y q) := by
  constructor
  · intro z hz q hq
    unfold add at hz
    split_ifs at hz with hl
    cases hz
    rw [hl, axpy_val hy hc 1 (by exact hq)]; simp
  · intro z hz q hq
    unfold sub at hz
    split_ifs at hz with hl
    cases hz
    rw [axpy_val hx hc.symm (-1) (by exact hq)]; push_cast; ring

/-- **C86.** `AlphaXaddThis` with a real and with a complex factor. -/
theorem C86_axpy {x this : El} (ht : Valid this) (hc : x.cplx = this.cplx) :
    (∀ (c : ℝ) z, axpyThis this c x = some z → ∀ q < count z, val z q = c * val x q + val this q) ∧
      (∀ (c : ℂ) z, axpyThisC this c x = some z → ∀ q < count z, val z q = c * val x q + val this q) := by
  constructor
  · intro c z hz q hq
    unfold axpyThis at hz
    split_ifs at hz with hl
    cases hz
    exact axpy_val ht hc c hq
  · intro c z hz q hq
    unfold axpyThisC at hz
    split_ifs at hz with hl
    cases hz
    have h : this.cplx = true := hc ▸ hl.2
    have h2 := two_count ht h
    have hq' : q < count this := hq
    rw [val_cplx hl.2, val_cplx h, sval_cplx h]
    exact (cloop_at (n := this.len / 2) (fun i w => c * cx x.get i + w) this.get).1 q (by omega)

/-- **C86.** `ScalarTimesThis` with a real factor, and with a complex factor for a complex element. -/
theorem C86_scal {x : El} (hx : Valid x) :
    (∀ (c : ℝ), ∀ q < count x, val (scalThis x c) q = c * val x q) ∧ (x.cplx = true → ∀ (c : ℂ), ∀ q < count x, val (scalThisC x c) q = c * val x q) := by
  constructor
  · intro c q hq
    have hs : ∀ p < x.len, scal x.len c 0 1 x.get p = c * x.get p := by
      intro p hp
      have := (scal_at (n := x.len) (start := 0) (inc := 1) c one_pos x.get).1 p hp
      simpa using this
    rcases h : x.cplx with _ | _
    · rw [val_real (x := scalThis x c) h, val_real h]
      simp only [scalThis]
      rw [hs q (by simpa [count, h] using hq)]; push_cast; rfl
    · have h2 := two_count hx h
      rw [val_cplx (x := scalThis x c) h, val_cplx h]
      apply Complex.ext
      · simp only [cx, scalThis]; rw [hs _ (by omega)]; simp
      · simp only [cx, scalThis]; rw [hs _ (by omega)]; simp
  · intro h c q hq
    have h2 := two_count hx h
    rw [val_cplx (x := scalThisC x c) h, val_cplx h]
    exact (cloop_at (n := x.len / 2) (fun _ w => c * w) x.get).1 q (by omega)

theorem mapR_get (junk : Nat → ℝ) (x : El) (f : ℝ → ℝ) {p : Nat} (hp : p < x.len) : (mapR junk x f).get p = f (x.get p) := by
  simp only [mapR]; exact write1_at junk (fun i => f (x.get i)) hp

theorem mapC_get {x : El} (hx : Valid x) (h : x.cplx = true) (junk : Nat → ℝ) (f g : ℝ → ℝ → ℝ) {q : Nat} (hq : q < count x) :
    val (mapC junk x f g) q = ⟨f (val x q).re (val x q).im, g (val x q).re (val x q).im⟩ := by
  have h2 := two_count hx h
  rw [val_cplx (x := mapC junk x f g) h, val_cplx h]
  simp only [mapC]
  exact write2_at junk (fun q => f (x.get (2 * q)) (x.get (2 * q + 1))) (fun q => g (x.get (2 * q)) (x.get (2 * q + 1))) (by omega)

theorem mapR_val_real {x : El} (h : x.cplx = false) (junk : Nat → ℝ) (f : ℝ → ℝ) {q : Nat} (hq : q < count x) :
    val (mapR junk x f) q = ((f (x.get q) : ℝ) : ℂ) := by
  rw [val_real (x := mapR junk x f) h, mapR_get junk x f (by simpa [count, h] using hq)]

theorem mapR_val_cplx {x : El} (hx : Valid x) (h : x.cplx = true) (junk : Nat → ℝ) (f : ℝ → ℝ) {q : Nat} (hq : q < count x) :
    val (mapR junk x f) q = ⟨f (x.get (2 * q)), f (x.get (2 * q + 1))⟩ := by
  have h2 := two_count hx h
  rw [val_cplx (x := mapR junk x f) h, cx, mapR_get junk x f (by omega), mapR_get junk x f (by omega)]

/-- **C86.** Operators between an element and a real number: sums and differences (real elements), multiples and quotients (both kinds), reciprocals (real elements). -/
theorem C86_real_scalar {x : El} (hx : Valid x) (junk : Nat → ℝ) (c : ℝ) :
    (∀ z, addR junk x c = some z → ∀ q < count x, val z q = val x q + c) ∧ (∀ z, subR junk x c = some z → ∀ q < count x, val z q = val x q - c) ∧
      (∀ z, rsub junk c x = some z → ∀ q < count x, val z q = c - val x q) ∧ (∀ q < count x, val (smulR junk c x) q = c * val x q) ∧
      (∀ z, divR junk x c = some z → ∀ q < count x, val z q = val x q / c) ∧ (∀ z, rdiv junk c x = some z → ∀ q < count x, val z q = c / val x q) := by
  refine ⟨?_, ?_, ?_, ?_, ?_, ?_⟩
  · intro z hz q hq
    unfold addR at hz; split_ifs at hz with h; cases hz
    have h : x.cplx = false := by simpa using h
    rw [mapR_val_real h _ _ hq, val_real h]; push_cast; rfl
  · intro z hz q hq
    unfold subR at hz; split_ifs at hz with h; cases hz
    have h : x.cplx = false := by simpa using h
    rw [mapR_val_real h _ _ hq, val_real h]; push_cast; rfl
  · intro z hz q hq
    unfold rsub at hz; split_ifs at hz with h; cases hz
    have h : x.cplx = false := by simpa using h
    rw [mapR_val_real h _ _ hq, val_real h]; push_cast; rfl
  · intro q hq
    rcases h : x.cplx with _ | _
    · rw [smulR, mapR_val_real h _ _ hq, val_real h]; push_cast; rfl
    · rw [smulR, mapR_val_cplx hx h _ _ hq, val_cplx h]
      apply Complex.ext <;> simp [cx]
  · intro z hz q hq
    unfold divR at hz; split_ifs at hz with h0; cases hz
    rcases h : x.cplx with _ | _
    · rw [mapR_val_real h _ _ hq, val_real h]; push_cast; rfl
    · rw [mapR_val_cplx hx h _ _ hq, val_cplx h]
      apply Complex.ext <;> simp [cx]
  · intro z hz q hq
    unfold rdiv at hz; split_ifs at hz with h0; cases hz
    push Not at h0
    have h : x.cplx = false := by simpa using h0.1
    rw [mapR_val_real h _ _ hq, val_real h]; push_cast; rfl

theorem cdiv_aux (a b : ℂ) : a / b = ⟨(b.re * a.re + b.im * a.im) / (b.re * b.re + b.im * b.im), (b.re * a.im - b.im * a.re) / (b.re * b.re + b.im * b.im)⟩ := by
  apply Complex.ext
  · rw [Complex.div_re, Complex.normSq_apply]; ring
  · rw [Complex.div_im, Complex.normSq_apply]; ring

/-- **C86.** Operators between a complex element and a complex number. -/
theorem C86_complex_scalar {x : El} (hx : Valid x) (junk : Nat → ℝ) (c : ℂ) :
    (∀ z, addC junk x c = some z → ∀ q < count x, val z q = val x q + c) ∧ (∀ z, subC junk x c = some z → ∀ q < count x, val z q = val x q - c) ∧
      (∀ z, csub junk c x = some z → ∀ q < count x, val z q = c - val x q) ∧ (∀ z, smulC junk c x = some z → ∀ q < count x, val z q = c * val x q) ∧
      (∀ z, divC junk x c = some z → c ≠ 0 ∧ ∀ q < count x, val z q = val x q / c) ∧ (∀ z, cdiv junk c x = some z → ∀ q < count x, val x q ≠ 0 ∧ val z q = c / val x q) := by
  refine ⟨?_, ?_, ?_, ?_, ?_, ?_⟩
  · intro z hz q hq
    unfold addC at hz; split_ifs at hz with h; cases hz
    rw [mapC_get hx h _ _ _ hq]; rfl
  · intro z hz q hq
    unfold subC at hz; split_ifs at hz with h; cases hz
    rw [mapC_get hx h _ _ _ hq]; rfl
  · intro z hz q hq
    unfold csub at hz; split_ifs at hz with h; cases hz
    rw [mapC_get hx h _ _ _ hq]; rfl
  · intro z hz q hq
    unfold smulC at hz; split_ifs at hz with h; cases hz
    rw [mapC_get hx h _ _ _ hq]
    apply Complex.ext <;> simp [Complex.mul_re, Complex.mul_im]
  · intro z hz
    simp only [divC] at hz; split_ifs at hz with h; cases hz
    push Not at h
    have hc : x.cplx = true := by simpa using h.1
    refine ⟨fun h0 => h.2 (by simp [h0]), fun q hq => ?_⟩
    rw [mapC_get hx hc _ _ _ hq, cdiv_aux]
  · intro z hz q hq
    unfold cdiv at hz; split_ifs at hz with h; cases hz
    push Not at h
    have hc : x.cplx = true := by simpa using h.1
    have h2 := two_count hx hc
    refine ⟨fun h0 => ?_, ?_⟩
    · rw [val_cplx hc] at h0
      have hr := congrArg Complex.re h0
      have hi := congrArg Complex.im h0
      simp only [cx, Complex.zero_re, Complex.zero_im] at hr hi
      exact h.2 q (by omega) (by rw [hr, hi]; ring)
    · rw [mapC_get hx hc _ _ _ hq, cdiv_aux]
      apply Complex.ext
      · simp only; ring
      · simp only; ring

/-! ## Products -/

theorem gemm_at {m n k : Nat} (ta tb : Tr) (alpha : ℝ) (A : Nat → ℝ) (lda : Nat) (B : Nat → ℝ) (ldb : Nat) (beta : ℝ) (C : Nat → ℝ) {i j : Nat} (hi : i < m) (hj : j < n) :
    gemm ta tb m n k alpha A lda B ldb beta m C (i + j * m) = alpha * (∑ l ∈ Finset.range k, (if ta = .N then A (i + l * lda) else A (l + i * lda)) *
      (if tb = .N then B (l + j * ldb) else B (j + l * ldb))) + beta * C (i + j * m) :=
  writeCol_at C (fun i j => alpha * (∑ l ∈ Finset.range k, (if ta = .N then A (i + l * lda) else A (l + i * lda)) * (if tb = .N then B (l + j * ldb) else B (j + l * ldb))) + beta * C (i + j * m)) hi hj

theorem cgemm_at {m n k : Nat} (ta tb : Tr) (alpha : ℂ) (A : Nat → ℝ) (lda : Nat) (B : Nat → ℝ) (ldb : Nat) (beta : ℂ) (C : Nat → ℝ) {i j : Nat} (hi : i < m) (hj : j < n) :
    cx (cgemm ta tb m n k alpha A lda B ldb beta m C) (i + j * m) = alpha * (∑ l ∈ Finset.range k, opc ta A lda i l * opc tb B ldb l j) + beta * cx C (i + j * m) :=
  writeColC_at C (fun i j => alpha * (∑ l ∈ Finset.range k, opc ta A lda i l * opc tb B ldb l j) + beta * cx C (i + j * m)) hi hj

/-- **C86.** The product of two elements is the matrix product of their first slices; it is defined exactly for elements of the same kind whose inner dimensions agree. -/
theorem C86_mul {x y : El} (junk : Nat → ℝ) :
    ((mul junk x y).isSome = true ↔ x.cplx = y.cplx ∧ x.col = y.row) ∧
      ∀ z, mul junk x y = some z → Valid z ∧ z.cplx = x.cplx ∧ z.row = x.row ∧ z.col = y.col ∧
        ∀ i < x.row, ∀ j < y.col, ent z i j = ∑ l ∈ Finset.range x.col, ent x i l * ent y l j := by
  rcases hc : x.cplx with _ | _ <;> rcases hd : y.cplx with _ | _
  · have h1 : y.row = y.s0 := by simp [El.row, hd]
    have h2 : x.row = x.s0 := by simp [El.row, hc]
    simp only [mul, hc, hd, h1, h2, El.col, if_true, Bool.false_eq_true, if_false, true_and]
    by_cases h : x.s1 = y.s0
    · rw [if_pos h]
      refine ⟨by simp [h], fun z hz => ?_⟩
      cases hz
      refine ⟨valid_mk _ _ _ _ _, rfl, row_mk _ _ _ _ _, rfl, fun i hi j hj => ?_⟩
      rw [ent, row_mk, val_real rfl]
      simp only [mk]
      rw [gemm_at _ _ _ _ _ _ _ _ _ hi hj]
      simp only [if_true, one_mul, zero_mul, add_zero, ent, val_real hc, val_real hd, h1, h2]
      push_cast; rfl
    · rw [if_neg h]
      exact ⟨by simp [h], fun z hz => by cases hz⟩
  · simp [mul, hc, hd]
  · simp [mul, hc, hd]
  · have h1 : y.row = y.s0 / 2 := by simp [El.row, hd]
    have h2 : x.row = x.s0 / 2 := by simp [El.row, hc]
    simp only [mul, hc, hd, h1, h2, El.col, if_true, true_and]
    by_cases h : x.s1 = y.s0 / 2
    · rw [if_pos h]
      refine ⟨by simp [h], fun z hz => ?_⟩
      cases hz
      refine ⟨valid_mk _ _ _ _ _, rfl, row_mk _ _ _ _ _, rfl, fun i hi j hj => ?_⟩
      rw [ent, row_mk, val_cplx rfl]
      simp only [mk]
      rw [cgemm_at _ _ _ _ _ _ _ _ _ hi hj]
      simp only [opc, one_mul, zero_mul, add_zero, ent, val_cplx hc, val_cplx hd, h1, h2]
    · rw [if_neg h]
      exact ⟨by simp [h], fun z hz => by cases hz⟩

/-- The number of row `i` and column `l` of the matrix `op(A)`. -/
noncomputable def opEnt (t : Tr) (A : El) (i l : Nat) : ℂ :=
  match t with
  | .N => ent A i l
  | .T => ent A l i
  | .C => (starRingEnd ℂ) (ent A l i)

def opRow (t : Tr) (A : El) : Nat := match t with | .N => A.row | _ => A.col
def opCol (t : Tr) (A : El) : Nat := match t with | .N => A.col | _ => A.row

/-- **C86.** `AlphaABaddBetaThis`: `alpha op(A) op(B) + beta this`, read with the shape of the product; defined for operands of the same kind whose dimensions agree and a
receiver with the right number of entries. -/
theorem C86_ab {this A B : El} (ta tb : Tr) (hk : this.cplx = A.cplx) (hA : A.cplx = B.cplx) (alpha beta : ℝ) :
    ((abThis this alpha A ta B tb beta).isSome = true ↔ opCol ta A = opRow tb B ∧ this.row * this.col = opRow ta A * opCol tb B) ∧
      ∀ z, abThis this alpha A ta B tb beta = some z → ∀ i < opRow ta A, ∀ j < opCol tb B,
        val z (i + j * opRow ta A) = alpha * (∑ l ∈ Finset.range (opCol ta A), opEnt ta A i l * opEnt tb B l j) + beta * val this (i + j * opRow ta A) := by
  have hrow : ∀ (t : Tr) (X : El), (if t = .N then X.row else X.col) = opRow t X := by intro t X; cases t <;> rfl
  have hcol : ∀ (t : Tr) (X : El), (if t = .N then X.col else X.row) = opCol t X := by intro t X; cases t <;> rfl
  rcases h : A.cplx with _ | _
  · have hB : B.cplx = false := hA ▸ h
    simp only [abThis, h, hB, and_self, if_true, hrow, hcol]
    split_ifs with h1 h2
    · refine ⟨by simp [h1, h2], fun z hz i hi j hj => ?_⟩
      cases hz
      have ht : this.cplx = false := hk.trans h
      rw [val_real ht, sval_real ht]
      rw [gemm_at _ _ _ _ _ _ _ _ _ hi hj]
      push_cast
      congr 2
      refine Finset.sum_congr rfl fun l _ => ?_
      cases ta <;> cases tb <;> simp [opEnt, ent, val_real h, val_real hB]
    · exact ⟨by simp [h2], fun z hz => by cases hz⟩
    · exact ⟨by simp [h1], fun z hz => by cases hz⟩
  · have hB : B.cplx = true := hA ▸ h
    simp only [abThis, abThisC, h, hB, and_self, if_true, hrow, hcol, Bool.true_eq_false, if_false]
    split_ifs with h1 h2
    · refine ⟨by simp [h1, h2], fun z hz i hi j hj => ?_⟩
      cases hz
      have ht : this.cplx = true := hk.trans h
      rw [val_cplx ht, sval_cplx ht]
      rw [cgemm_at _ _ _ _ _ _ _ _ _ hi hj]
      congr 2
      refine Finset.sum_congr rfl fun l _ => ?_
      cases ta <;> cases tb <;> simp [opEnt, opc, ent, val_cplx h, val_cplx hB]
    · exact ⟨by simp [h2], fun z hz => by cases hz⟩
    · exact ⟨by simp [h1], fun z hz => by cases hz⟩

/-- **C86.** `AlphaABaddBetaThis` with complex factors. -/
theorem C86_ab_complex {this A B : El} (ta tb : Tr) (ht : this.cplx = true) (alpha beta : ℂ) :
    ((abThisC this alpha A ta B tb beta).isSome = true ↔ (A.cplx = true ∧ B.cplx = true) ∧ opCol ta A = opRow tb B ∧ this.row * this.col = opRow ta A * opCol tb B) ∧
      ∀ z, abThisC this alpha A ta B tb beta = some z → ∀ i < opRow ta A, ∀ j < opCol tb B,
        val z (i + j * opRow ta A) = alpha * (∑ l ∈ Finset.range (opCol ta A), opEnt ta A i l * opEnt tb B l j) + beta * val this (i + j * opRow ta A) := by
  have hrow : ∀ (t : Tr) (X : El), (if t = .N then X.row else X.col) = opRow t X := by intro t X; cases t <;> rfl
  have hcol : ∀ (t : Tr) (X : El), (if t = .N then X.col else X.row) = opCol t X := by intro t X; cases t <;> rfl
  simp only [abThisC, hrow, hcol]
  split_ifs with h h1 h2
  · refine ⟨by simp [h, h1, h2], fun z hz i hi j hj => ?_⟩
    cases hz
    rw [val_cplx ht, sval_cplx ht, cgemm_at _ _ _ _ _ _ _ _ _ hi hj]
    congr 2
    refine Finset.sum_congr rfl fun l _ => ?_
    cases ta <;> cases tb <;> simp [opEnt, opc, ent, val_cplx h.1, val_cplx h.2]
  · exact ⟨by simp [h2], fun z hz => by cases hz⟩
  · exact ⟨by simp [h1], fun z hz => by cases hz⟩
  · exact ⟨by simp only [Option.isSome_none, Bool.false_eq_true, false_iff, not_and]; exact fun h' => absurd h' h, fun z hz => by cases hz⟩

/-! ## Diagonal matrices, rank-one updates -/

theorem mulPair_eq (p : Nat) (sr si : ℝ) : mulPair p sr si = fun a => setcx a p (⟨sr, si⟩ * cx a p) := by
  funext a
  simp only [mulPair, setcx, cx, Complex.mul_re, Complex.mul_im]
  congr 1
  · congr 1; ring
  · ring

/-- **C86.** `GetDiagTimesM` and `DiagTimesM`: the rows (side "L") or the columns (side "R") of the first slice are multiplied by the numbers of the vector. -/
theorem C86_diag {d M z : El} (left : Bool) (hz : diagTimes left d M = some z) : z.row = M.row ∧ z.col = M.col ∧ ∀ i < M.row, ∀ j < M.col,
    ent z i j = if left then val d i * ent M i j else ent M i j * val d j := by
  unfold diagTimes at hz
  simp only at hz
  have hinj : ∀ {i i' j j' : Nat}, i < M.row → i' < M.row → i + j * M.row = i' + j' * M.row → i = i' ∧ j = j' := fun h h' e => colMajor_inj h h' e
  split_ifs at hz with hc hl h1 h2 h3 h4 h5 <;> cases hz
  · refine ⟨rfl, rfl, fun i hi j hj => ?_⟩
    simp only [hl, if_true, ent, El.row]
    have hM2 : M.cplx = true := hc.trans h2
    rw [show (if M.cplx then M.s0 / 2 else M.s0) = M.row from rfl, val_cplx h2, val_cplx hM2, sval_cplx hM2]
    simp only [mulPair_eq]
    exact cloop2_at (n := M.row) (m := M.col) (fun i j => i + j * M.row) (fun i hi j _ i' hi' j' _ e => hinj hi hi' e) (fun i _ w => ⟨d.get (2 * i), d.get (2 * i + 1)⟩ * w) M.get i hi j hj
  · refine ⟨rfl, rfl, fun i hi j hj => ?_⟩
    have hd : d.cplx = false := by simpa using h2
    have hM2 : M.cplx = false := hc.trans hd
    simp only [hl, if_true, ent, El.row]
    rw [show (if M.cplx then M.s0 / 2 else M.s0) = M.row from rfl, val_real hd, val_real hM2, sval_real hM2]
    have := (rloop2_at (n := M.row) (m := M.col) (fun i j => i + j * M.row) (fun i hi j _ i' hi' j' _ e => hinj hi hi' e) (fun i _ w => d.get i * w) M.get).1 i hi j hj
    simp only [scal]
    rw [this]; push_cast; rfl
  · refine ⟨rfl, rfl, fun i hi j hj => ?_⟩
    have hM2 : M.cplx = true := hc.trans h3
    have hl : left = false := by simpa using hl
    simp only [hl, Bool.false_eq_true, if_false, ent, El.row]
    rw [show (if M.cplx then M.s0 / 2 else M.s0) = M.row from rfl, val_cplx h3, val_cplx hM2, sval_cplx hM2]
    simp only [mulPair_eq]
    rw [mul_comm (cx M.get _)]
    exact cloop2_at (n := M.col) (m := M.row) (fun j i => i + j * M.row) (fun j _ i hi j' _ i' hi' e => (hinj hi hi' e).symm) (fun j _ w => ⟨d.get (2 * j), d.get (2 * j + 1)⟩ * w) M.get j hj i hi
  · refine ⟨rfl, rfl, fun i hi j hj => ?_⟩
    have hd : d.cplx = false := by simpa using h3
    have hM2 : M.cplx = false := hc.trans hd
    have hl : left = false := by simpa using hl
    simp only [hl, Bool.false_eq_true, if_false, ent, El.row]
    rw [show (if M.cplx then M.s0 / 2 else M.s0) = M.row from rfl, val_real hd, val_real hM2, sval_real hM2]
    have := (rloop2_at (n := M.col) (m := M.row) (fun j i => j * M.row + i * 1) (fun j _ i hi j' _ i' hi' e => (hinj hi hi' (show i + j * M.row = i' + j' * M.row by omega)).symm)
      (fun j _ w => d.get j * w) M.get).1 j hj i hi
    simp only [scal]
    simp only [mul_one] at this ⊢
    rw [show i + j * M.row = j * M.row + i by ring, this]; push_cast; ring

/-- **C86.** Rank-one updates of a real element: `this + c u vᵀ`. -/
theorem C86_rankone {x u v z : El} (c : ℝ) (hx : x.cplx = false) (hu : u.cplx = false) (hv : v.cplx = false) (hz : rankOne x c u v = some z) :
    z.row = x.row ∧ z.col = x.col ∧ ∀ i < x.row, ∀ j < x.col, ent z i j = ent x i j + c * val u i * val v j := by
  unfold rankOne at hz
  split_ifs at hz with h
  cases hz
  refine ⟨rfl, rfl, fun i hi j hj => ?_⟩
  simp only [ent, El.row]
  rw [show (if x.cplx then x.s0 / 2 else x.s0) = x.row from rfl, val_real hx, val_real hu, val_real hv, sval_real hx]
  simp only [ger]
  rw [(rloop2_at (n := x.col) (m := x.row) (fun j i => i + j * x.row) (fun j _ i hi j' _ i' hi' e => (colMajor_inj hi hi' e).symm) (fun j i w => w + c * u.get i * v.get j) x.get).1 j hj i hi]
  push_cast; rfl

/-- **C86.** Rank-one updates of a complex element by a complex factor: `this + c u vᵀ`, without conjugation. -/
theorem C86_rankone_complex {x u v z : El} (c : ℂ) (hz : rankOneC x c u v = some z) :
    z.row = x.row ∧ z.col = x.col ∧ ∀ i < x.row, ∀ j < x.col, ent z i j = ent x i j + c * val u i * val v j := by
  unfold rankOneC at hz
  split_ifs at hz with h
  cases hz
  obtain ⟨-, hx, hu, hv⟩ := h
  refine ⟨rfl, rfl, fun i hi j hj => ?_⟩
  simp only [ent, El.row]
  rw [show (if x.cplx then x.s0 / 2 else x.s0) = x.row from rfl, val_cplx hx, val_cplx hu, val_cplx hv, sval_cplx hx]
  simp only [geru]
  exact cloop2_at (n := x.col) (m := x.row) (fun j i => i + j * x.row) (fun j _ i hi j' _ i' hi' e => (colMajor_inj hi hi' e).symm) (fun j i w => w + c * cx u.get i * cx v.get j) x.get j hj i hi

/-! ## Inner products and norms -/

theorem dot_pairs (n : Nat) (x y : Nat → ℝ) : dot (2 * n) x y = ∑ q ∈ Finset.range n, ((starRingEnd ℂ) (cx x q) * cx y q).re := by
  induction n with
  | zero => simp [dot]
  | succ n ih =>
    rw [Finset.sum_range_succ, ← ih, show 2 * (n + 1) = 2 * n + 1 + 1 by ring, dot, Finset.sum_range_succ, Finset.sum_range_succ, dot]
    simp only [Complex.mul_re, Complex.conj_re, Complex.conj_im, cx]
    ring

theorem dot_val {x y : El} (hx : Valid x) (hc : x.cplx = y.cplx) : dot x.len x.get y.get = ∑ q ∈ Finset.range (count x), ((starRingEnd ℂ) (val x q) * val y q).re := by
  rcases h : x.cplx with _ | _
  · have h' : y.cplx = false := hc ▸ h
    simp only [count, h, dot, val_real h, val_real h', Bool.false_eq_true, if_false]
    refine Finset.sum_congr rfl fun q _ => ?_
    simp
  · have h' : y.cplx = true := hc ▸ h
    rw [← two_count hx h, dot_pairs]
    exact Finset.sum_congr rfl fun q _ => by rw [val_cplx h, val_cplx h']

/-- **C86.** `DotProduct` is the real part of the inner product and `Fnorm` the Frobenius norm. -/
theorem C86_dot {x y : El} (hx : Valid x) (hc : x.cplx = y.cplx) (hl : x.len = y.len) :
    dotProduct x y = some (∑ q ∈ Finset.range (count x), ((starRingEnd ℂ) (val x q) * val y q).re) ∧ fnorm x = √(∑ q ∈ Finset.range (count x), Complex.normSq (val x q)) := by
  refine ⟨by rw [dotProduct, if_pos hl, dot_val hx hc], ?_⟩
  rw [fnorm, dot_val hx rfl]
  congr 1
  refine Finset.sum_congr rfl fun q _ => ?_
  simp [Complex.normSq_apply, Complex.mul_re]

/-- **C86.** Squared norms of the columns and inner products of corresponding columns, as a real row vector. -/
theorem C86_columns {x y : El} (hx : Valid x) (junk : Nat → ℝ) :
    ((colNormsSq junk x).row = 1 ∧ (colNormsSq junk x).col = x.col ∧ ∀ j < x.col, ent (colNormsSq junk x) 0 j = ((∑ i ∈ Finset.range x.row, Complex.normSq (ent x i j) : ℝ) : ℂ)) ∧
      ∀ z, colDots junk x y = some z → z.row = 1 ∧ z.col = x.col ∧ ∀ j < x.col, ent z 0 j = ((∑ i ∈ Finset.range x.row, ((starRingEnd ℂ) (ent x i j) * ent y i j).re : ℝ) : ℂ) := by
  have key : ∀ (w : El), w.cplx = x.cplx → w.row = x.row → ∀ j, dot x.s0 (fun p => x.get (p + j * x.s0)) (fun p => w.get (p + j * x.s0)) =
      ∑ i ∈ Finset.range x.row, ((starRingEnd ℂ) (ent x i j) * ent w i j).re := by
    intro w hw hr j
    rcases h : x.cplx with _ | _
    · simp only [dot, ent, val_real h, val_real (hw.trans h), hr, s0_row_real h]
      exact Finset.sum_congr rfl fun i _ => by simp
    · have h2 := s0_row hx h
      rw [h2, dot_pairs]
      refine Finset.sum_congr rfl fun i _ => ?_
      rw [ent, ent, val_cplx h, val_cplx (hw.trans h), hr]
      have e : ∀ a : Nat → ℝ, cx (fun p => a (p + j * (2 * x.row))) i = cx a (i + j * x.row) := by
        intro a
        simp only [cx]
        rw [show 2 * i + j * (2 * x.row) = 2 * (i + j * x.row) by ring, show 2 * i + 1 + j * (2 * x.row) = 2 * (i + j * x.row) + 1 by ring]
      rw [e, e]
  constructor
  · refine ⟨row_mk _ _ _ _ _, rfl, fun j hj => ?_⟩
    rw [ent, show (colNormsSq junk x).row = 1 from row_mk _ _ _ _ _, val_real rfl]
    simp only [colNormsSq, mk, mul_one, zero_add]
    rw [write1_at junk (fun i => dot x.s0 (fun p => x.get (p + i * x.s0)) (fun p => x.get (p + i * x.s0))) hj, key x rfl rfl]
    congr 1
    refine Finset.sum_congr rfl fun q _ => ?_
    simp [Complex.normSq_apply, Complex.mul_re]
  · intro z hz
    unfold colDots at hz
    split_ifs at hz with h
    cases hz
    refine ⟨row_mk _ _ _ _ _, rfl, fun j hj => ?_⟩
    rw [ent, row_mk, val_real rfl]
    simp only [mk, mul_one, zero_add]
    rw [write1_at junk (fun i => dot x.s0 (fun p => x.get (p + i * x.s0)) (fun p => y.get (p + i * x.s0))) hj, key y h.2.2 h.1.symm]

/-! ## Entrywise operations -/

/-- **C86.** Entrywise product and quotient of elements of the same kind; the quotient is defined if no divisor is zero. -/
theorem C86_hadamard {x y : El} (hy : Valid y) (hx : Valid x) :
    (∀ z, hadamard x y = some z → ∀ q < count y, val z q = val x q * val y q) ∧
      ((hadamardDiv x y).isSome = true ↔ (x.len = y.len ∧ x.cplx = y.cplx) ∧ ∀ q < count x, val y q ≠ 0) ∧ (∀ z, hadamardDiv x y = some z → ∀ q < count x, val z q = val x q / val y q) := by
  have hzero : ∀ q, y.cplx = true → (y.get (2 * q) * y.get (2 * q) + y.get (2 * q + 1) * y.get (2 * q + 1) = 0 ↔ val y q = 0) := by
    intro q h
    rw [val_cplx h, ← Complex.normSq_eq_zero, Complex.normSq_apply]; rfl
  refine ⟨?_, ?_, ?_⟩
  · intro z hz q hq
    unfold hadamard at hz
    split_ifs at hz with h hc <;> cases hz
    · have hy2 : y.cplx = true := h.2 ▸ hc
      have h2 := two_count hy hy2
      rw [val_cplx hc, val_cplx hy2, sval_cplx hy2]
      have e : (fun (q : Nat) (a : Nat → ℝ) => (let re := a (2 * q) * x.get (2 * q) - a (2 * q + 1) * x.get (2 * q + 1)
          let im := a (2 * q + 1) * x.get (2 * q) + a (2 * q) * x.get (2 * q + 1)
          Function.update (Function.update a (2 * q) re) (2 * q + 1) im : Nat → ℝ)) = fun q a => setcx a q (cx x.get q * cx a q) := by
        funext q a
        simp only [setcx, cx, Complex.mul_re, Complex.mul_im]
        congr 1
        · congr 1; ring
        · ring
      simp only at e ⊢
      rw [e]
      exact (cloop_at (n := (x.len + 1) / 2) (fun i w => cx x.get i * w) y.get).1 q (by omega)
    · have hc : x.cplx = false := by simpa using hc
      have hy2 : y.cplx = false := h.2 ▸ hc
      rw [val_real hc, val_real hy2, sval_real hy2]
      have := (loop_at (n := x.len) (body := fun i a => Function.update a i (a i * x.get i)) (fun i p => p = i)
        (fun i _ a p hp => Function.update_of_ne hp _ _) (fun i _ a b hab p hp => by subst hp; simp only [Function.update_self]; rw [hab _ rfl])
        (fun i _ j _ hne p h1 h2 => hne (by omega)) y.get).1 q (by simp only [count, hy2] at hq; rw [h.1]; simpa using hq) q rfl
      rw [this, Function.update_self]; push_cast; ring
  · unfold hadamardDiv
    split_ifs with h hc h0 h0
    · have hy2 : y.cplx = true := h.2 ▸ hc
      simp only [Option.isSome_none, Bool.false_eq_true, false_iff, not_and]
      intro _ hne
      obtain ⟨q, hq, he⟩ := h0
      exact hne q (by simpa [count, hc] using hq) ((hzero q hy2).mp he)
    · have hy2 : y.cplx = true := h.2 ▸ hc
      push Not at h0
      simp only [Option.isSome_some, true_iff]
      exact ⟨h, fun q hq he => h0 q (by simpa [count, hc] using hq) ((hzero q hy2).mpr he)⟩
    · have hc : x.cplx = false := by simpa using hc
      have hy2 : y.cplx = false := h.2 ▸ hc
      simp only [Option.isSome_none, Bool.false_eq_true, false_iff, not_and]
      intro _ hne
      obtain ⟨q, hq, he⟩ := h0
      exact hne q (by simpa [count, hc] using hq) (by rw [val_real hy2, he]; rfl)
    · have hc : x.cplx = false := by simpa using hc
      have hy2 : y.cplx = false := h.2 ▸ hc
      push Not at h0
      simp only [Option.isSome_some, true_iff]
      exact ⟨h, fun q hq he => h0 q (by simpa [count, hc] using hq) (by rw [val_real hy2] at he; exact_mod_cast he)⟩
    · simp only [Option.isSome_none, Bool.false_eq_true, false_iff, not_and]
      exact fun h' => absurd h' h
  · intro z hz q hq
    unfold hadamardDiv at hz
    split_ifs at hz with h hc h0 h0 <;> cases hz
    · have hy2 : y.cplx = true := h.2 ▸ hc
      have h2 := two_count hx hc
      rw [val_cplx hc, val_cplx hy2, sval_cplx hc]
      have e : (fun (q : Nat) (a : Nat → ℝ) => (let de := y.get (2 * q) * y.get (2 * q) + y.get (2 * q + 1) * y.get (2 * q + 1)
          let re := (a (2 * q) * y.get (2 * q) + a (2 * q + 1) * y.get (2 * q + 1)) / de
          let im := (a (2 * q + 1) * y.get (2 * q) - a (2 * q) * y.get (2 * q + 1)) / de
          Function.update (Function.update a (2 * q) re) (2 * q + 1) im : Nat → ℝ)) = fun q a => setcx a q (cx a q / cx y.get q) := by
        funext q a
        rw [cdiv_aux]
        simp only [setcx, cx]
        congr 1
        · congr 1; ring
        · ring
      simp only at e ⊢
      rw [e]
      exact (cloop_at (n := (x.len + 1) / 2) (fun i w => w / cx y.get i) x.get).1 q (by omega)
    · have hc : x.cplx = false := by simpa using hc
      have hy2 : y.cplx = false := h.2 ▸ hc
      rw [val_real hc, val_real hy2, sval_real hc]
      have := (loop_at (n := x.len) (body := fun i a => Function.update a i (a i / y.get i)) (fun i p => p = i)
        (fun i _ a p hp => Function.update_of_ne hp _ _) (fun i _ a b hab p hp => by subst hp; simp only [Function.update_self]; rw [hab _ rfl])
        (fun i _ j _ hne p h1 h2 => hne (by omega)) x.get).1 q (by simpa [count, hc] using hq) q rfl
      rw [this, Function.update_self]; push_cast; rfl

/-- **C86.** Entrywise maximum, minimum, absolute value and square root of the stored numbers. -/
theorem C86_entrywise {x u : El} (junk : Nat → ℝ) (v : ℝ) {q : Nat} (hq : q < x.len) :
    (∀ z, getMax junk x u = some z → z.get q = max (x.get q) (u.get q)) ∧ (∀ z, getMin junk x u = some z → z.get q = min (x.get q) (u.get q)) ∧
      (getMaxR junk x v).get q = max (x.get q) v ∧ (getMinR junk x v).get q = min (x.get q) v ∧ (getAbs junk x).get q = |x.get q| ∧
      (∀ z, getSqrt junk x = some z → 0 ≤ z.get q ∧ z.get q * z.get q = x.get q) := by
  refine ⟨?_, ?_, ?_, ?_, mapR_get junk x _ hq, ?_⟩
  · intro z hz
    unfold getMax at hz; split_ifs at hz with h; cases hz
    simp only
    rw [write1_at junk (fun i => if u.get i < x.get i then x.get i else u.get i) hq]
    split_ifs with h1
    · rw [max_eq_left h1.le]
    · rw [max_eq_right (not_lt.mp h1)]
  · intro z hz
    unfold getMin at hz; split_ifs at hz with h; cases hz
    simp only
    rw [write1_at junk (fun i => if u.get i > x.get i then x.get i else u.get i) hq]
    split_ifs with h1
    · rw [min_eq_left (le_of_lt h1)]
    · rw [min_eq_right (not_lt.mp h1)]
  · rw [getMaxR, mapR_get junk x _ hq]
    split_ifs with h1
    · rw [max_eq_left h1.le]
    · rw [max_eq_right (not_lt.mp h1)]
  · rw [getMinR, mapR_get junk x _ hq]
    split_ifs with h1
    · rw [min_eq_left (le_of_lt h1)]
    · rw [min_eq_right (not_lt.mp h1)]
  · intro z hz
    unfold getSqrt at hz; split_ifs at hz with h; cases hz
    push Not at h
    rw [mapR_get junk x _ hq]
    exact ⟨Real.sqrt_nonneg _, Real.mul_self_sqrt (h q hq)⟩

/-- The meaning of a comparison. -/
def holds : Rel → ℝ → ℝ → Prop
  | .eq, a, b => a = b
  | .gt, a, b => b < a
  | .ge, a, b => b ≤ a
  | .lt, a, b => a < b
  | .le, a, b => a ≤ b

/-- **C86.** The comparison operators return 1 where the comparison holds between the left and the right operand, 0 elsewhere. -/
theorem C86_compare {x y : El} (junk : Nat → ℝ) (r : Rel) (v : ℝ) {q : Nat} (hq : q < x.len) :
    ((cmpVM junk r v x).get q = 1 ∨ (cmpVM junk r v x).get q = 0) ∧ ((cmpVM junk r v x).get q = 1 ↔ holds r v (x.get q)) ∧
      ((cmpMV junk r x v).get q = 1 ∨ (cmpMV junk r x v).get q = 0) ∧ ((cmpMV junk r x v).get q = 1 ↔ holds r (x.get q) v) ∧
      ∀ z, cmpMM junk r x y = some z → (z.get q = 1 ∨ z.get q = 0) ∧ (z.get q = 1 ↔ holds r (x.get q) (y.get q)) := by
  classical
  have h1 : ∀ a b, relVM r a b ↔ holds r a b := by intro a b; cases r <;> simp [relVM, holds]
  have h2 : ∀ a b, relMV r a b ↔ holds r b a := by
    intro a b
    cases r <;> simp [relMV, holds]
    exact eq_comm
  have h3 : ∀ p : Prop, ((if p then (1 : ℝ) else 0) = 1 ∨ (if p then (1 : ℝ) else 0) = 0) ∧ ((if p then (1 : ℝ) else 0) = 1 ↔ p) := by
    intro p; by_cases hp : p <;> simp [hp]
  rw [cmpVM, mapR_get junk x _ hq, cmpMV, mapR_get junk x _ hq]
  refine ⟨(h3 _).1, (h3 _).2.trans (h1 _ _), (h3 _).1, (h3 _).2.trans (h2 _ _), fun z hz => ?_⟩
  unfold cmpMM at hz; split_ifs at hz with h; cases hz
  simp only
  rw [write1_at junk (fun i => if relVM r (x.get i) (y.get i) then (1 : ℝ) else 0) hq]
  exact ⟨(h3 _).1, (h3 _).2.trans (h1 _ _)⟩

/-- **C86.** Conjugation, and the embedding of real into complex elements. -/
theorem C86_conj_embed {x : El} (hx : Valid x) (junk : Nat → ℝ) :
    (∀ z, conj x = some z → ∀ q < count x, val z q = (starRingEnd ℂ) (val x q)) ∧
      ∀ z, realToComplex junk x = some z → z.cplx = true ∧ z.row = x.row ∧ z.col = x.col ∧ z.num = x.num ∧ ∀ q < count x, val z q = val x q := by
  constructor
  · intro z hz q hq
    unfold conj at hz; split_ifs at hz with h; cases hz
    have h2 := two_count hx h
    rw [val_cplx h, sval_cplx h]
    obtain ⟨s1, s2⟩ := scal_at (n := x.len / 2) (start := 1) (inc := 2) (-1) two_pos x.get
    apply Complex.ext
    · simp only [cx, Complex.conj_re]; rw [s2 _ fun i _ => by omega]
    · simp only [cx, Complex.conj_im]
      have := s1 q (by omega)
      rw [show 2 * q + 1 = 1 + q * 2 by ring, this]; ring
  · intro z hz
    unfold realToComplex at hz; split_ifs at hz with h; cases hz
    have h : x.cplx = false := by simpa using h
    refine ⟨rfl, row_mk _ _ _ _ _, rfl, rfl, fun q hq => ?_⟩
    have hq' : q < x.len := by simpa [count, h] using hq
    have hlen : x.len = x.row * x.col * x.num := by rw [← count_eq hx]; simp [count, h]
    rw [val_cplx rfl, val_real h]
    apply Complex.ext
    · simp only [cx, mk, Complex.ofReal_re]
      refine writeAll_of_mem _ _ _ _ (mem_forN.mpr ⟨q, hq', by simp⟩) fun y hy => ?_
      obtain ⟨k, _, e⟩ := mem_forN.mp hy
      simp only [List.mem_singleton, Prod.mk.injEq] at e
      rw [e.2, show k = q by omega]
    · simp only [cx, mk, Complex.ofReal_im]
      rw [writeAll_of_not_mem]
      · exact write1_at junk (fun _ => 0) (by rw [show 2 * x.row * x.col * x.num = 2 * (x.row * x.col * x.num) by ring, ← hlen]; omega)
      · intro y hy
        obtain ⟨k, _, e⟩ := mem_forN.mp hy
        simp only [List.mem_singleton, Prod.mk.injEq] at e
        omega

/-! ## Identity matrices -/

/-- **C86.** `SetToIdentity` makes an element with one slice the identity, rectangular or complex ones included. -/
theorem C86_identity {x : El} (hx : Valid x) (hn : x.num = 1) (junk : Nat → ℝ) {i j : Nat} (hi : i < x.row) (hj : j < x.col) :
    ent (setToIdentity junk x) i j = if i = j then 1 else 0 := by
  set mn := if x.row < x.col then x.row else x.col with hmn
  have hs2 : x.s2 = 1 := hn
  rcases h : x.cplx with _ | _
  · have hr := s0_row_real h
    have hlt : i + j * x.row < x.len := by
      rw [El.len, hs2, mul_one, hr]; exact colMajor_lt hi hj
    rw [ent, show (setToIdentity junk x).row = x.row from rfl, val_real (x := setToIdentity junk x) h]
    simp only [setToIdentity, h, Bool.false_eq_true, if_false, hr]
    by_cases e : i = j
    · subst e
      rw [if_pos rfl, writeAll_of_mem _ _ _ 1 (mem_forN.mpr ⟨i, by split_ifs <;> assumption, by simp⟩) fun y hy => ?_]
      · simp
      · obtain ⟨k, _, hk⟩ := mem_forN.mp hy
        simp only [List.mem_singleton, Prod.mk.injEq] at hk
        exact hk.2
    · rw [if_neg e, writeAll_of_not_mem, write1_at junk (fun _ => 0) hlt]
      · simp
      · intro y hy
        obtain ⟨k, hk0, hk⟩ := mem_forN.mp hy
        simp only [List.mem_singleton, Prod.mk.injEq] at hk
        have hk1 : k < x.row := by split_ifs at hk0 <;> omega
        obtain ⟨rfl, rfl⟩ := colMajor_inj hi hk1 hk.1
        exact e rfl
  · have hr := s0_row hx h
    have hlt : i + j * x.row < x.row * x.col := colMajor_lt hi hj
    have hlen : x.len = 2 * (x.row * x.col) := by
      rw [El.len, hs2, mul_one, hr, El.col]; ring
    rw [ent, show (setToIdentity junk x).row = x.row from rfl, val_cplx (x := setToIdentity junk x) h]
    have hz : ∀ p < x.len, writeAll junk (forN x.len fun i => [(i, (0 : ℝ))]) p = 0 := fun p hp => write1_at junk (fun _ => 0) hp
    have hnot : ∀ (p : Nat), (∀ k < mn, p ≠ 2 * (k + k * x.row)) → p < x.len → (setToIdentity junk x).get p = 0 := by
      intro p hp hpl
      simp only [setToIdentity, h, if_true]
      rw [writeAll_of_not_mem, hz p hpl]
      intro y hy
      obtain ⟨k, hk0, hk⟩ := mem_forN.mp hy
      simp only [List.mem_singleton, Prod.mk.injEq] at hk
      refine hp k hk0 ?_
      rw [hk.1, hr]; ring
    apply Complex.ext
    · simp only [cx]
      split_ifs with e
      · subst e
        simp only [setToIdentity, h, if_true, Complex.one_re]
        refine writeAll_of_mem _ _ _ 1 (mem_forN.mpr ⟨i, by split_ifs <;> assumption, ?_⟩) fun y hy => ?_
        · simp only [List.mem_singleton, Prod.mk.injEq, and_true]; rw [hr]; ring
        · obtain ⟨k, _, hk⟩ := mem_forN.mp hy
          simp only [List.mem_singleton, Prod.mk.injEq] at hk
          exact hk.2
      · rw [hnot]
        · rfl
        · intro k hk he
          have hk1 : k < x.row := by rw [hmn] at hk; split_ifs at hk <;> omega
          obtain ⟨rfl, rfl⟩ := colMajor_inj hi hk1 (show i + j * x.row = k + k * x.row by omega)
          exact e rfl
        · omega
    · simp only [cx]
      rw [hnot _ (fun k _ => by omega) (by omega)]
      split_ifs <;> simp

/-- **C86.** `ScaledIdOPE` makes a square real element a multiple of the identity, whatever the memory contained. -/
theorem C86_scaled_identity {x : El} (hx : x.cplx = false) (hsq : x.row = x.col) (a0 : Nat → ℝ) (c : ℝ) {i j : Nat} (hi : i < x.row) (hj : j < x.col) :
    ent (scaledId a0 x c) i j = if i = j then (c : ℂ) else 0 := by
  have hr := s0_row_real hx
  have hs : x.s0 = x.s1 := hr.trans hsq
  have hcx : (scaledId a0 x c).cplx = false := by simp [scaledId, hs, hx]
  have hrow : (scaledId a0 x c).row = x.row := by simp [scaledId, hs, El.row]
  rw [ent, hrow, val_real hcx]
  have hj' : j < x.s0 := by rw [hs]; exact hj
  rw [← hr] at hi ⊢
  simp only [scaledId, ne_eq, hs, not_true, if_false]
  rw [← hs]
  have hmem : ∀ y, (i + j * x.s0, y) ∈ (forN x.s0 fun i => (i + i * x.s0, c) :: forRange (i + 1) (x.s0 - 1) fun j => [(i + j * x.s0, 0), (j + i * x.s0, 0)]) → y = if i = j then c else 0 := by
    intro y hy
    obtain ⟨k, hk0, hk⟩ := mem_forN.mp hy
    rcases List.mem_cons.mp hk with hk | hk
    · simp only [Prod.mk.injEq] at hk
      obtain ⟨rfl, rfl⟩ := colMajor_inj hi hk0 hk.1
      rw [if_pos rfl]; exact hk.2
    · obtain ⟨l, hl1, hl2, hk⟩ := mem_forRange.mp hk
      simp only [List.mem_cons, Prod.mk.injEq, List.not_mem_nil, or_false] at hk
      rcases hk with ⟨e, rfl⟩ | ⟨e, rfl⟩
      · obtain ⟨rfl, rfl⟩ := colMajor_inj hi hk0 e
        rw [if_neg (by omega)]
      · obtain ⟨rfl, rfl⟩ := colMajor_inj hi (by omega : l < x.s0) e
        rw [if_neg (by omega)]
  rw [writeAll_of_mem _ _ _ (if i = j then c else 0) ?_ hmem]
  · split_ifs <;> simp
  · rcases lt_trichotomy i j with h | h | h
    · refine mem_forN.mpr ⟨i, hi, List.mem_cons_of_mem _ (mem_forRange.mpr ⟨j, by omega, by omega, ?_⟩)⟩
      rw [if_neg (by omega)]; simp
    · subst h
      exact mem_forN.mpr ⟨i, hi, by simp⟩
    · refine mem_forN.mpr ⟨j, hj', List.mem_cons_of_mem _ (mem_forRange.mpr ⟨i, by omega, by omega, ?_⟩)⟩
      rw [if_neg (by omega)]; simp

/-! ## Pieces of the factorisations -/

/-- **C86.** The eigenvalues (singular values) of a complex matrix are turned into complex numbers in place without loss: number `i` of the complex vector is the `i`-th value. -/
theorem C86_expand (N : Nat) (a : Nat → ℝ) {i : Nat} (hi : i < N) : val (mk true N 1 1 (expand N a)) i = (a i : ℂ) := by
  rw [val_cplx rfl]
  obtain ⟨h1, h2⟩ := (expand_spec N a).1 i hi
  apply Complex.ext
  · simpa [cx, mk] using h1
  · simpa [cx, mk] using h2

/-- **C86.** The Cholesky factorisation starts from the lower triangle, the rest being zero. -/
theorem C86_chol_input {x : El} (hx : Valid x) (hsq : x.row = x.col) (junk : Nat → ℝ) {i j : Nat} (hi : i < x.row) (hj : j < x.col) :
    ent (cholInput junk x) i j = if j ≤ i then ent x i j else 0 := by
  have hcx : (cholInput junk x).cplx = x.cplx := by unfold cholInput; split_ifs <;> rfl
  have hrow : (cholInput junk x).row = x.row := by unfold cholInput; split_ifs <;> rfl
  rcases h : x.cplx with _ | _
  · have hr := s0_row_real h
    have hs : x.s0 = x.row := hr
    rw [ent, ent]
    rw [hrow, val_real (hcx.trans h), val_real h]
    simp only [cholInput, h, Bool.false_eq_true, if_false, hs]
    rw [writeCol_at (m := x.row) (n := x.row) junk (fun j i => if j ≥ i then x.get (j + i * x.row) else 0) hi (hsq ▸ hj)]
    by_cases hij : j ≤ i
    · simp [hij]
    · simp [hij]
  · have hr := s0_row hx h
    have hs : x.s0 / 2 = x.row := by omega
    rw [ent, ent]
    rw [hrow, val_cplx (hcx.trans h), val_cplx h]
    simp only [cholInput, h, if_true, hs]
    have := writeColC_at (m := x.row) (n := x.row) junk (fun j i => if j ≥ i then cx x.get (j + i * x.row) else 0) hi (hsq ▸ hj)
    have e : (fun i => forN x.row fun j => [(2 * j + i * 2 * x.row, if j ≥ i then x.get (2 * j + i * 2 * x.row) else 0),
        (2 * j + 1 + i * 2 * x.row, if j ≥ i then x.get (2 * j + 1 + i * 2 * x.row) else 0)]) =
        fun i => forN x.row fun j => [(2 * (j + i * x.row), (if j ≥ i then cx x.get (j + i * x.row) else 0 : ℂ).re), (2 * (j + i * x.row) + 1, (if j ≥ i then cx x.get (j + i * x.row) else 0 : ℂ).im)] := by
      funext i
      congr 1
      funext j
      have e1 : 2 * j + i * 2 * x.row = 2 * (j + i * x.row) := by ring
      have e2 : 2 * j + 1 + i * 2 * x.row = 2 * (j + i * x.row) + 1 := by ring
      rw [e1, e2]
      split_ifs <;> rfl
    rw [e, this]

/-- **C86.** The factor `R` of a QR factorisation is the upper trapezoidal part of what `geqp3` returns, for any shape. -/
theorem C86_qr_factor {h : El} (junk : Nat → ℝ) : (qrR junk h).row = min h.row h.col ∧ (qrR junk h).col = h.col ∧
    ∀ i < min h.row h.col, ∀ j < h.col, ent (qrR junk h) i j = if i ≤ j then ent h i j else 0 := by
  have hmn : (if h.row < h.col then h.row else h.col) = min h.row h.col := by
    split_ifs with e
    · rw [min_eq_left e.le]
    · rw [min_eq_right (not_lt.mp e)]
  rcases hc : h.cplx with _ | _
  · have hrow : (qrR junk h).row = min h.row h.col := by
      simp only [qrR, hc, Bool.false_eq_true, if_false, hmn]; exact row_mk _ _ _ _ _
    refine ⟨hrow, by simp [qrR, hc, mk, El.col], fun i hi j hj => ?_⟩
    rw [ent, ent, hrow, val_real (by simp [qrR, hc, mk]), val_real hc]
    simp only [qrR, hc, Bool.false_eq_true, if_false, hmn, mk]
    have := writeCol_at (m := min h.row h.col) (n := h.col) junk (fun j i => if j ≤ i then h.get (j + i * h.row) else 0) hi hj
    have e : (fun i => forN (min h.row h.col) fun j => if j ≤ i then [(j + i * min h.row h.col, h.get (j + i * h.row))] else [(j + i * min h.row h.col, 0)]) =
        fun i => forN (min h.row h.col) fun j => [(j + i * min h.row h.col, if j ≤ i then h.get (j + i * h.row) else 0)] := by
      funext i; congr 1; funext j; split_ifs <;> rfl
    rw [e, this]
    split_ifs <;> simp
  · have hrow : (qrR junk h).row = min h.row h.col := by
      simp only [qrR, hc, if_true, hmn]; exact row_mk _ _ _ _ _
    refine ⟨hrow, by simp [qrR, hc, mk, El.col], fun i hi j hj => ?_⟩
    rw [ent, ent, hrow, val_cplx (by simp [qrR, hc, mk]), val_cplx hc]
    simp only [qrR, hc, if_true, hmn, mk]
    have := writeColC_at (m := min h.row h.col) (n := h.col) junk (fun j i => if j ≤ i then cx h.get (j + i * h.row) else 0) hi hj
    have e : (fun i => forN (min h.row h.col) fun j => if j ≤ i then
        [(2 * j + i * 2 * min h.row h.col, h.get (2 * j + i * 2 * h.row)), (2 * j + 1 + i * 2 * min h.row h.col, h.get (2 * j + 1 + i * 2 * h.row))]
        else [(2 * j + 2 * i * min h.row h.col, 0), (2 * j + 1 + 2 * i * min h.row h.col, 0)]) =
        fun i => forN (min h.row h.col) fun j => [(2 * (j + i * min h.row h.col), (if j ≤ i then cx h.get (j + i * h.row) else 0 : ℂ).re),
          (2 * (j + i * min h.row h.col) + 1, (if j ≤ i then cx h.get (j + i * h.row) else 0 : ℂ).im)] := by
      funext i; congr 1; funext j
      split_ifs
      · rw [show 2 * j + i * 2 * min h.row h.col = 2 * (j + i * min h.row h.col) by ring, show 2 * j + 1 + i * 2 * min h.row h.col = 2 * (j + i * min h.row h.col) + 1 by ring,
          show 2 * j + i * 2 * h.row = 2 * (j + i * h.row) by ring, show 2 * j + 1 + i * 2 * h.row = 2 * (j + i * h.row) + 1 by ring]; rfl
      · rw [show 2 * j + 2 * i * min h.row h.col = 2 * (j + i * min h.row h.col) by ring, show 2 * j + 1 + 2 * i * min h.row h.col = 2 * (j + i * min h.row h.col) + 1 by ring]; rfl
    rw [e, this]

/-! ## What is checked -/

/-- **C87 (the part that holds).** Products with a diagonal matrix, rank-one updates, entrywise operations, inner products of columns, comparisons, and conjugation are refused unless the
kinds and the dimensions of the operands fit; sums, differences and inner products are refused unless the operands have the same number of stored values. -/
theorem C87_checks_partial (x y u v : El) (junk : Nat → ℝ) :
    (∀ left, (diagTimes left y x).isSome = true → y.cplx = x.cplx ∧ (Valid x → Valid y → count y = if left then x.row else x.col)) ∧
      (∀ c, (rankOne x c u v).isSome = true → u.row = x.row ∧ v.row = x.col) ∧ (∀ c, (rankOneC x c u v).isSome = true → (x.cplx ∧ u.cplx ∧ v.cplx) ∧ u.row = x.row ∧ v.row = x.col) ∧
      ((hadamard x y).isSome = true ∨ (hadamardDiv x y).isSome = true → x.cplx = y.cplx ∧ count x = count y) ∧
      ((getMax junk x y).isSome = true ∨ (getMin junk x y).isSome = true → x.cplx = false ∧ y.cplx = false ∧ count x = count y) ∧
      ((colDots junk x y).isSome = true → x.cplx = y.cplx ∧ x.row = y.row ∧ x.col = y.col) ∧ (∀ r, (cmpMM junk r x y).isSome = true → x.len = y.len) ∧
      (x.len ≠ y.len → add x y = none ∧ sub x y = none ∧ dotProduct x y = none ∧ ∀ c, axpyThis x c y = none) ∧
      (x.cplx = false → conj x = none ∧ ∀ c : ℂ, addC junk x c = none ∧ subC junk x c = none ∧ csub junk c x = none ∧ smulC junk c x = none) ∧
      (x.cplx = true → realToComplex junk x = none ∧ ∀ c : ℝ, addR junk x c = none ∧ subR junk x c = none ∧ rsub junk c x = none) := by
  refine ⟨?_, ?_, ?_, ?_, ?_, ?_, ?_, ?_, ?_, ?_⟩
  · intro left h
    unfold diagTimes at h
    simp only at h
    split_ifs at h with h1 h2 h3 h4 h5 h6 h6 <;> simp at h <;> refine ⟨h1.symm, fun hx hy => ?_⟩
    · have := s0_row hx (h1.trans h4)
      have := two_count hy h4
      rw [if_pos h2]; omega
    · have h4 : y.cplx = false := by simpa using h4
      have := s0_row_real (h1.trans h4)
      simp only [count, h4, h2, if_true, Bool.false_eq_true, if_false]; omega
    · have := two_count hy h5
      rw [if_neg h2, El.col]; omega
    · have h5 : y.cplx = false := by simpa using h5
      simp only [count, h5, h2, Bool.false_eq_true, if_false, El.col]; omega
  · intro c h
    unfold rankOne at h
    split_ifs at h with h1
    · exact ⟨h1.1.2.2, h1.2.2.2⟩
    · simp at h
  · intro c h
    unfold rankOneC at h
    split_ifs at h with h1
    · exact ⟨h1.2, h1.1.1.2.2, h1.1.2.2.2⟩
    · simp at h
  · intro h
    have key : x.len = y.len ∧ x.cplx = y.cplx := by
      rcases h with h | h
      · unfold hadamard at h; split_ifs at h with h1
        · exact h1
        · exact h1
        · simp at h
      · unfold hadamardDiv at h; split_ifs at h with h1
        all_goals first | exact h1 | simp at h
    exact ⟨key.2, by simp only [count, key.1, key.2]⟩
  · intro h
    have key : y.len = x.len ∧ x.cplx = false ∧ y.cplx = false := by
      rcases h with h | h
      · unfold getMax at h; split_ifs at h with h1
        · exact h1
        · simp at h
      · unfold getMin at h; split_ifs at h with h1
        · exact h1
        · simp at h
    exact ⟨key.2.1, key.2.2, by simp only [count, key.1, key.2.1, key.2.2]⟩
  · intro h
    unfold colDots at h; split_ifs at h with h1
    · exact ⟨h1.2.2.symm, h1.1, h1.2.1⟩
    · simp at h
  · intro r h
    unfold cmpMM at h; split_ifs at h with h1
    · tauto
    · simp at h
  · intro h
    exact ⟨by simp [add, h], by simp [sub, h], by simp [dotProduct, h], fun c => by simp [axpyThis, h]⟩
  · intro h
    exact ⟨by simp [conj, h], fun c => ⟨by simp [addC, h], by simp [subC, h], by simp [csub, h], by simp [smulC, h]⟩⟩
  · intro h
    exact ⟨by simp [realToComplex, h], fun c => ⟨by simp [addR, h], by simp [subR, h], by simp [rsub, h]⟩⟩

/-- **C87 fails.** A 2×3 and a 3×2 matrix are added, and a real 2×1 vector to a complex number; the inner product of these is computed as well. -/
theorem C87_sum_shape_false : ∃ x y v w : El, Valid x ∧ Valid y ∧ Valid v ∧ Valid w ∧ x.row ≠ y.row ∧ x.col ≠ y.col ∧ (add x y).isSome = true ∧ (sub x y).isSome = true ∧
    (dotProduct x y).isSome = true ∧ v.cplx ≠ w.cplx ∧ (add v w).isSome = true ∧ (dotProduct v w).isSome = true := by
  refine ⟨mk false 2 3 1 (fun _ => 0), mk false 3 2 1 (fun _ => 0), mk false 2 1 1 (fun _ => 0), mk true 1 1 1 (fun _ => 0), valid_mk _ _ _ _ _, valid_mk _ _ _ _ _, valid_mk _ _ _ _ _,
    valid_mk _ _ _ _ _, ?_, ?_, ?_, ?_, ?_, ?_, ?_, ?_⟩ <;> simp [mk, El.row, El.col, add, sub, dotProduct, El.len]

/-- **C87 fails.** A 2×3 matrix receives a 3×2 product: the second column of the receiver starts with an entry of the first column of the product. -/
theorem C87_receiver_shape_false : ∃ this A B z : El, this.row = 2 ∧ this.col = 3 ∧ A.row = 3 ∧ B.col = 2 ∧ abThis this 1 A .N B .N 0 = some z ∧ z.row = 2 ∧
    ent z 0 1 = ent A 2 0 * ent B 0 0 ∧ ent z 0 1 ≠ ent A 0 0 * ent B 0 1 := by
  refine ⟨mk false 2 3 1 (fun _ => 0), mk false 3 1 1 (fun p => p), mk false 1 2 1 (fun _ => 1),
    { mk false 2 3 1 (fun _ => 0) with get := gemm .N .N 3 2 1 1 (fun p => p) 3 (fun _ => 1) 1 0 3 (fun _ => 0) }, rfl, rfl, rfl, rfl, ?_, ?_⟩
  · simp [abThis, mk, El.row, El.col]
  · refine ⟨rfl, ?_, ?_⟩
    all_goals
      rw [ent, val_real rfl]
      have := gemm_at (m := 3) (n := 2) (k := 1) .N .N 1 (fun p => (p : ℝ)) 3 (fun _ => 1) 1 0 (fun _ => 0) (show 2 < 3 by norm_num) (show 0 < 2 by norm_num)
      simp only [mk, El.row, Bool.false_eq_true, if_false] at this ⊢
      norm_num at this ⊢
      rw [this]
      norm_num [ent, val, El.row]

/-- **C87 fails.** The rank-one update with a real factor accepts complex elements and does not compute `this + c u vᵀ` (nor with `v` conjugated): for 1×1 elements only the real
parts are used. -/
theorem C87_rankone_complex_false : ∃ x u v z : El, Valid x ∧ Valid u ∧ Valid v ∧ x.cplx = true ∧ u.cplx = true ∧ v.cplx = true ∧ rankOne x 1 u v = some z ∧
    ent z 0 0 ≠ ent x 0 0 + 1 * val u 0 * val v 0 ∧ ent z 0 0 ≠ ent x 0 0 + 1 * val u 0 * (starRingEnd ℂ) (val v 0) := by
  set a : Nat → ℝ := fun _ => 1 with ha
  refine ⟨mk true 1 1 1 (fun _ => 0), mk true 1 1 1 a, mk true 1 1 1 a, { mk true 1 1 1 (fun _ => 0) with get := ger 1 1 1 a a (fun _ => 0) }, valid_mk _ _ _ _ _, valid_mk _ _ _ _ _,
    valid_mk _ _ _ _ _, rfl, rfl, rfl, ?_, ?_, ?_⟩
  · simp [rankOne, rankOneOk, mk, El.row, El.col, El.num]
  · intro h
    have h := congrArg Complex.re h
    simp [ent, val, mk, ger, loop, ha, El.row, Function.update] at h
  · intro h
    have h := congrArg Complex.re h
    simp [ent, val, mk, ger, loop, ha, El.row, Function.update] at h

/-- **C87 fails.** The comment in the header promises `this + c u v'`; for complex vectors the update is `c u vᵀ`, without conjugation. -/
theorem C87_rankone_no_conj_false : ∃ x u v z : El, Valid x ∧ Valid u ∧ Valid v ∧ rankOneC x 1 u v = some z ∧ ent z 0 0 ≠ ent x 0 0 + 1 * val u 0 * (starRingEnd ℂ) (val v 0) := by
  have hI : ∀ a b : ℝ, val (mk true 1 1 1 fun p => if p = 0 then a else b) 0 = ⟨a, b⟩ := by intro a b; simp [val, mk]
  set x := mk true 1 1 1 fun p => if p = 0 then 0 else 0
  set u := mk true 1 1 1 fun p => if p = 0 then 0 else 1
  have hs : (rankOneC x 1 u u).isSome = true := by
    unfold rankOneC
    rw [if_pos]
    · rfl
    · simp [rankOneOk, x, u, mk, El.row, El.col, El.num]
  obtain ⟨z, hz⟩ := Option.isSome_iff_exists.mp hs
  refine ⟨x, u, u, z, valid_mk _ _ _ _ _, valid_mk _ _ _ _ _, valid_mk _ _ _ _ _, hz, ?_⟩
  rw [(C86_rankone_complex 1 hz).2.2 0 (by simp [x, mk, El.row]) 0 (by simp [x, mk, El.col])]
  intro h
  have h := congrArg Complex.re h
  rw [hI 0 1] at h
  norm_num [Complex.mul_re] at h

/-- **C87 fails.** `GetRealInComplex` of a 1×1 complex matrix returns a number whose imaginary part is whatever the new memory contained; and for a 2×1 matrix the second real part ends up
as the imaginary part of the first entry. -/
theorem C87_real_part_false (junk : Nat → ℝ) (g : Nat → ℝ) :
    (∀ z, realInComplex junk (mk true 1 1 1 g) = some z → val z 0 = ⟨(val (mk true 1 1 1 g) 0).re, junk 1⟩) ∧
      (∀ z, realInComplex junk (mk true 2 1 1 g) = some z → val z 0 = ⟨(val (mk true 2 1 1 g) 0).re, (val (mk true 2 1 1 g) 1).re⟩ ∧ val z 1 = ⟨junk 2, junk 3⟩) ∧
      (∀ z, imagInComplex junk (mk true 2 1 1 g) = some z → val z 0 = ⟨(val (mk true 2 1 1 g) 0).im, (val (mk true 2 1 1 g) 1).im⟩ ∧ val z 1 = ⟨junk 2, junk 3⟩) := by
  refine ⟨?_, ?_, ?_⟩
  · intro z hz
    simp only [realInComplex, mk, if_true, Option.some.injEq] at hz
    subst hz
    simp [val, El.len, forN, writeAll, mk, List.range, List.range.loop, Function.update]
  · intro z hz
    simp only [realInComplex, mk, if_true, Option.some.injEq] at hz
    subst hz
    simp [val, El.len, forN, writeAll, mk, List.range, List.range.loop, Function.update]
  · intro z hz
    simp only [imagInComplex, mk, if_true, Option.some.injEq] at hz
    subst hz
    simp [val, El.len, forN, writeAll, mk, List.range, List.range.loop, Function.update]

/-- **C87 fails.** `ScaledIdOPE` leaves every nonempty square complex matrix as it was. -/
theorem C87_scaled_identity_complex_false (a0 : Nat → ℝ) {x : El} (hx : Valid x) (hc : x.cplx = true) (hsq : x.row = x.col) (hpos : 0 < x.row) (c : ℝ) : scaledId a0 x c = x := by
  have := s0_row hx hc
  have h : x.s0 ≠ x.s1 := by
    have : x.s1 = x.row := hsq.symm
    omega
  rw [scaledId, if_pos h]

/-- **C87 fails.** The product ignores all but the first slice: two elements that differ in the second slice only have the same product with anything. -/
theorem C87_slices_ignored_false (junk : Nat → ℝ) : ∃ x x' y z : El, x.num = 2 ∧ x'.num = 2 ∧ val x 1 ≠ val x' 1 ∧ 1 < count x ∧ mul junk x y = some z ∧ mul junk x' y = some z ∧ z.num = 1 := by
  refine ⟨mk false 1 1 2 (fun _ => 0), mk false 1 1 2 (fun p => if p = 1 then 1 else 0), mk false 1 1 1 (fun _ => 1), mk false 1 1 1 (gemm .N .N 1 1 1 1 (fun _ => 0) 1 (fun _ => 1) 1 0 1 junk), rfl, rfl, ?_, ?_, ?_, ?_, rfl⟩
  · simp [val, mk]
  · simp [count, mk, El.len]
  · simp [mul, mk]
  · have hz : ({x ∈ ({0} : Finset Nat) | x = 1}).card = 0 := by decide
    simp [mul, mk, gemm, forN, hz]

/-! ## The hypotheses can be met -/

/-- A 2×2 complex element. -/
example : Valid (mk true 2 2 1 fun p => (p : ℝ)) ∧ count (mk true 2 2 1 fun p => (p : ℝ)) = 4 ∧ ent (mk true 2 2 1 fun p => (p : ℝ)) 1 1 = ⟨6, 7⟩ := by
  refine ⟨valid_mk _ _ _ _ _, rfl, ?_⟩
  apply Complex.ext <;> norm_num [ent, val, mk, El.row]

/-- The product of a 2×3 and a 3×2 matrix is defined and 2×2. -/
example (junk a b : Nat → ℝ) : ∃ z, mul junk (mk true 2 3 1 a) (mk true 3 2 1 b) = some z ∧ z.row = 2 ∧ z.col = 2 := by
  obtain ⟨z, hz⟩ := Option.isSome_iff_exists.mp ((C86_mul (x := mk true 2 3 1 a) (y := mk true 3 2 1 b) junk).1.mpr ⟨rfl, by simp [mk, El.row, El.col]⟩)
  have := (C86_mul (x := mk true 2 3 1 a) (y := mk true 3 2 1 b) junk).2 z hz
  exact ⟨z, hz, this.2.2.1.trans (row_mk _ _ _ _ _), this.2.2.2.1⟩

/-- Rows of a 2×3 matrix multiplied by the numbers of a vector of length 2; a product added to a receiver with the same number of entries. -/
example (a b c : Nat → ℝ) : (diagTimes true (mk false 2 1 1 a) (mk false 2 3 1 b)).isSome = true ∧ (abThis (mk true 2 2 1 c) 2 (mk true 3 2 1 a) .C (mk true 3 2 1 b) .N 1).isSome = true ∧
    (hadamard (mk true 2 2 1 a) (mk true 2 2 1 b)).isSome = true ∧ (rankOne (mk false 2 3 1 a) 1 (mk false 2 1 1 b) (mk false 3 1 1 c)).isSome = true := by
  refine ⟨?_, ?_, ?_, ?_⟩ <;> simp [diagTimes, abThis, abThisC, hadamard, rankOne, rankOneOk, mk, El.row, El.col, El.num, El.len]

end Verif.Dense
