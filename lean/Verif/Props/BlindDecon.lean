import Verif.Problem.BlindDecon
import Verif.Props.Wavelet
import Mathlib.Analysis.Calculus.Deriv.Mul
import Mathlib.Analysis.Calculus.Deriv.Add
import Mathlib.Analysis.Calculus.Deriv.Pow
import Mathlib.Analysis.Calculus.Deriv.Comp
import Mathlib.Analysis.Calculus.Deriv.Star
import Mathlib.Analysis.Complex.RealDeriv
import Mathlib.Tactic.LinearCombination

/-!
# C108: blind deconvolution
-/

namespace Verif.BlindDecon

open Finset Verif.Wavelet

/-- The real inner product of `n` complex numbers. -/
noncomputable def inner (n : Nat) (a b : Nat → ℂ) : ℝ := ∑ i ∈ range n, ((a i).re * (b i).re + (a i).im * (b i).im)

theorem inner_eq (n : Nat) (a b : Nat → ℂ) : inner n a b = (∑ i ∈ range n, (starRingEnd ℂ) (a i) * b i).re := by
  simp [inner, Complex.re_sum]

/-! ## The linear maps as matrices -/

theorem kernel_symm (s : ℝ) (n1 n2 p q : Nat) : kernel s n1 n2 p q = kernel s n1 n2 q p := by
  unfold kernel
  congr 3
  ring

theorem kernel_conj (s : ℝ) (n1 n2 p q : Nat) : (starRingEnd ℂ) (kernel s n1 n2 p q) = kernel (-s) n1 n2 p q := by
  unfold kernel
  rw [← Complex.exp_conj]
  congr 1
  have h2 : (starRingEnd ℂ) (2 : ℂ) = 2 := Complex.conj_ofNat 2
  simp [h2]

theorem haar_matrix (n : Nat) (junk : Nat → ℂ) : ∃ M : Nat → Nat → ℂ, (∀ w, ∀ p < n, ihaar n 1 junk w p = ∑ q ∈ range n, M p q * w q) ∧
    ∀ v, ∀ q < n, haar n 1 junk v q = ∑ p ∈ range n, (starRingEnd ℂ) (M p q) * v p := by
  have hadj (v w : Nat → ℂ) : ∑ i ∈ range n, (starRingEnd ℂ) (haar n 1 junk v i) * w i = ∑ i ∈ range n, (starRingEnd ℂ) (v i) * ihaar n 1 junk w i := by
    have := C83_adjoint n 1 junk junk v w
    simpa using this
  have h1 : ∀ w, ∀ p < n, ihaar n 1 junk w p = ∑ q ∈ range n, (starRingEnd ℂ) (haar n 1 junk (fun i => if i = p then 1 else 0) q) * w q := by
    intro w p hp
    rw [hadj, sum_eq_single p]
    · simp
    · intro b _ hb
      simp [hb]
    · intro h
      exact absurd (mem_range.mpr hp) h
  refine ⟨_, h1, ?_⟩
  intro v q hq
  have h2 := hadj v fun i => if i = q then 1 else 0
  rw [sum_eq_single q] at h2
  · simp only [if_true, mul_one] at h2
    have h3 := congrArg (starRingEnd ℂ) h2
    rw [Complex.conj_conj, map_sum] at h3
    rw [h3]
    refine sum_congr rfl fun p hp => ?_
    rw [map_mul, Complex.conj_conj, h1 _ p (mem_range.mp hp), sum_eq_single q]
    · simp [mul_comm]
    · intro b _ hb
      simp [hb]
    · intro h
      exact absurd (mem_range.mpr hq) h
  · intro b _ hb
    simp [hb]
  · intro h
    exact absurd (mem_range.mpr hq) h

/-- `fbu` and its adjoint as the code computes it. -/
theorem fbu_matrix (P : Prob) : ∃ A : Nat → Nat → ℂ, (∀ U p, P.fbu U p = ∑ k ∈ range P.kU, A p k * U k) ∧
    ∀ z k, adjVec P.L P.B (fft 1 P.n1 P.n2 z) k = ∑ p ∈ range P.L, (starRingEnd ℂ) (A p k) * z p := by
  refine ⟨fun p k => ∑ q ∈ range P.L, kernel (-1) P.n1 P.n2 p q * P.B q k, ?_, ?_⟩
  · intro U p
    simp only [Prob.fbu, fft, mulVec, Prob.L, mul_sum, sum_mul]
    rw [sum_comm]
    simp only [mul_assoc]
  · intro z k
    simp only [adjVec, fft, map_sum, map_mul, Complex.conj_conj, sum_mul, Prob.L]
    rw [sum_comm]
    refine sum_congr rfl fun p _ => sum_congr rfl fun q _ => ?_
    rw [kernel_conj, kernel_symm, neg_neg]
    ring

theorem fcv_matrix (P : Prob) : ∃ A : Nat → Nat → ℂ, (∀ V p, P.fcv V p = ∑ k ∈ range P.kV, A p k * V k) ∧
    ∀ z k, adjVec P.L P.C (haar P.L 1 P.junk (fft (-1) P.n1 P.n2 z)) k = ∑ p ∈ range P.L, (starRingEnd ℂ) (A p k) * z p := by
  obtain ⟨M, hM, hM'⟩ := haar_matrix P.L P.junk
  refine ⟨fun p k => ∑ q ∈ range P.L, kernel 1 P.n1 P.n2 p q * ∑ s ∈ range P.L, M q s * P.C s k, ?_, ?_⟩
  · intro V p
    have e : P.fcv V p = ∑ q ∈ range P.L, kernel 1 P.n1 P.n2 p q * ∑ s ∈ range P.L, M q s * ∑ k ∈ range P.kV, P.C s k * V k := by
      rw [Prob.fcv, fft]
      exact sum_congr rfl fun q hq => by rw [hM _ q (mem_range.mp hq)]; rfl
    rw [e]
    simp only [mul_sum, sum_mul]
    rw [sum_comm' (s := range P.kV) (t := fun _ => range P.L) (t' := range P.L) (s' := fun _ => range P.kV) (by simp)]
    refine sum_congr rfl fun q _ => ?_
    rw [sum_comm]
    simp only [mul_assoc]
  · intro z k
    have e : adjVec P.L P.C (haar P.L 1 P.junk (fft (-1) P.n1 P.n2 z)) k =
        ∑ s ∈ range P.L, (∑ q ∈ range P.L, (starRingEnd ℂ) (M q s) * ∑ p ∈ range P.L, kernel (-1) P.n1 P.n2 q p * z p) * (starRingEnd ℂ) (P.C s k) := by
      rw [adjVec, map_sum]
      refine sum_congr rfl fun s hs => ?_
      rw [map_mul, Complex.conj_conj, hM' _ s (mem_range.mp hs)]
      rfl
    rw [e]
    simp only [map_sum, map_mul, mul_sum, sum_mul]
    rw [sum_comm' (s := range P.L) (t := fun _ => range P.L) (t' := range P.L) (s' := fun _ => range P.L) (by simp)]
    rw [sum_congr rfl fun q _ => sum_comm]
    rw [sum_comm]
    refine sum_congr rfl fun p _ => sum_congr rfl fun q _ => sum_congr rfl fun s _ => ?_
    rw [kernel_conj, kernel_symm]
    ring

theorem adj_inner (m n : Nat) (A : Nat → Nat → ℂ) (z x : Nat → ℂ) :
    inner n (fun k => ∑ p ∈ range m, (starRingEnd ℂ) (A p k) * z p) x = inner m z fun p => ∑ k ∈ range n, A p k * x k := by
  rw [inner_eq, inner_eq]
  congr 1
  simp only [map_sum, map_mul, Complex.conj_conj, mul_sum, sum_mul]
  rw [sum_comm]
  refine sum_congr rfl fun p _ => sum_congr rfl fun k _ => ?_
  ring

theorem res_eq (P : Prob) (b c : Nat → ℂ) (i : Nat) : P.res b c i = P.y i - b i * (starRingEnd ℂ) (c i) := by
  apply Complex.ext
  · simp [Prob.res]
  · simp [Prob.res]
    ring

/-! ## Derivatives -/

theorem deriv_re {z : ℝ → ℂ} {z' : ℂ} {t : ℝ} (h : HasDerivAt z z' t) : HasDerivAt (fun t => (z t).re) z'.re t :=
  Complex.reCLM.hasFDerivAt.comp_hasDerivAt t h

theorem deriv_im {z : ℝ → ℂ} {z' : ℂ} {t : ℝ} (h : HasDerivAt z z' t) : HasDerivAt (fun t => (z t).im) z'.im t :=
  Complex.imCLM.hasFDerivAt.comp_hasDerivAt t h

theorem deriv_conj {z : ℝ → ℂ} {z' : ℂ} {t : ℝ} (h : HasDerivAt z z' t) : HasDerivAt (fun t => (starRingEnd ℂ) (z t)) ((starRingEnd ℂ) z') t :=
  (Complex.conjCLE : ℂ →L[ℝ] ℂ).hasFDerivAt.comp_hasDerivAt t h

theorem deriv_abs2 {z : ℝ → ℂ} {z' : ℂ} {t : ℝ} (h : HasDerivAt z z' t) :
    HasDerivAt (fun t => (z t).re * (z t).re + (z t).im * (z t).im) (2 * ((z t).re * z'.re + (z t).im * z'.im)) t := by
  have := ((deriv_re h).mul (deriv_re h)).add ((deriv_im h).mul (deriv_im h))
  have e : z'.re * (z t).re + (z t).re * z'.re + (z'.im * (z t).im + (z t).im * z'.im) = 2 * ((z t).re * z'.re + (z t).im * z'.im) := by ring
  rw [e] at this
  exact this

theorem deriv_posPart_sq (x : ℝ) : HasDerivAt (fun x : ℝ => (if x < 0 then 0 else x) * (if x < 0 then 0 else x)) (2 * (if x < 0 then 0 else x)) x := by
  rcases lt_trichotomy x 0 with h | h | h
  · rw [if_pos h, mul_zero]
    refine (hasDerivAt_const x (0 : ℝ)).congr_of_eventuallyEq ?_
    filter_upwards [Iio_mem_nhds h] with y hy
    have hy' : y < 0 := hy
    rw [if_pos hy', mul_zero]
  · subst h
    rw [if_neg (lt_irrefl _), mul_zero, hasDerivAt_iff_isLittleO_nhds_zero]
    simp only [zero_add, lt_irrefl, if_false, mul_zero, sub_zero, smul_zero]
    refine Asymptotics.IsBigO.trans_isLittleO (g := fun h : ℝ => h * h) ?_ ?_
    · refine Asymptotics.IsBigO.of_bound 1 (Filter.Eventually.of_forall fun y => ?_)
      by_cases hy : y < 0
      · rw [if_pos hy]; simp [mul_self_nonneg]
      · rw [if_neg hy, one_mul]
    · have h1 : (fun h : ℝ => h) =o[nhds 0] fun _ => (1 : ℝ) := by
        rw [Asymptotics.isLittleO_one_iff]
        exact Filter.tendsto_id
      have := (Asymptotics.isBigO_refl (fun h : ℝ => h) (nhds 0)).mul_isLittleO h1
      simpa using this
  · rw [if_neg (not_lt.mpr h.le)]
    have h1 : HasDerivAt (fun x : ℝ => x * x) (2 * x) x := by
      have := (hasDerivAt_id x).mul (hasDerivAt_id x)
      have e : 1 * id x + id x * 1 = 2 * x := by simp; ring
      rw [e] at this
      exact this
    refine h1.congr_of_eventuallyEq ?_
    filter_upwards [Ioi_mem_nhds h] with y hy
    have hy' : 0 < y := hy
    rw [if_neg (not_lt.mpr hy'.le)]

theorem deriv_matrix {n : Nat} {A : Nat → Nat → ℂ} {x : ℝ → Nat → ℂ} {x' : Nat → ℂ} {t : ℝ} (h : ∀ k < n, HasDerivAt (fun t => x t k) (x' k) t) (p : Nat) :
    HasDerivAt (fun t => ∑ k ∈ range n, A p k * x t k) (∑ k ∈ range n, A p k * x' k) t :=
  HasDerivAt.fun_sum fun k hk => (h k (mem_range.mp hk)).const_mul (A p k)

theorem deriv_res (P : Prob) {b c : ℝ → Nat → ℂ} {b' c' : Nat → ℂ} {t : ℝ} {i : Nat} (hb : HasDerivAt (fun t => b t i) (b' i) t) (hc : HasDerivAt (fun t => c t i) (c' i) t) :
    HasDerivAt (fun t => P.res (b t) (c t) i) (-(b t i * (starRingEnd ℂ) (c' i) + b' i * (starRingEnd ℂ) (c t i))) t := by
  simp only [res_eq]
  have := (hb.mul (deriv_conj hc)).const_sub (P.y i)
  have e : -(b' i * (starRingEnd ℂ) (c t i) + b t i * (starRingEnd ℂ) (c' i)) = -(b t i * (starRingEnd ℂ) (c' i) + b' i * (starRingEnd ℂ) (c t i)) := by ring
  rw [e] at this
  exact this

theorem deriv_sq {n : Nat} {v : ℝ → Nat → ℂ} {v' : Nat → ℂ} {t : ℝ} (h : ∀ i < n, HasDerivAt (fun t => v t i) (v' i) t) :
    HasDerivAt (fun t => Prob.sq n (v t)) (2 * inner n (v t) v') t := by
  rw [inner, mul_sum]
  exact HasDerivAt.fun_sum fun i hi => deriv_abs2 (h i (mem_range.mp hi))

theorem inner_add_left (n : Nat) (a b x : Nat → ℂ) : inner n (fun k => a k + b k) x = inner n a x + inner n b x := by
  simp only [inner, ← sum_add_distrib]
  refine sum_congr rfl fun i _ => ?_
  simp only [Complex.add_re, Complex.add_im]
  ring

theorem inner_smul_left (n : Nat) (s : ℝ) (a x : Nat → ℂ) : inner n (fun k => (s : ℂ) * a k) x = s * inner n a x := by
  simp only [inner, mul_sum]
  refine sum_congr rfl fun i _ => ?_
  simp only [Complex.mul_re, Complex.mul_im, Complex.ofReal_re, Complex.ofReal_im]
  ring

theorem inner_comm (n : Nat) (a x : Nat → ℂ) : inner n a x = inner n x a := by
  simp only [inner]
  exact sum_congr rfl fun i _ => by ring

/-- The data part of the gradient against a direction. -/
theorem data_inner (P : Prob) (b c U' V' : Nat → ℂ) :
    inner P.kU (P.dataU b c) U' + inner P.kV (P.dataV b c) V' =
      2 * inner P.L (P.res b c) fun i => -(b i * (starRingEnd ℂ) (P.fcv V' i) + P.fbu U' i * (starRingEnd ℂ) (c i)) := by
  obtain ⟨A, hA, hA'⟩ := fbu_matrix P
  obtain ⟨D, hD, hD'⟩ := fcv_matrix P
  have eU : P.dataU b c = fun k => ((-2 : ℝ) : ℂ) * ∑ p ∈ range P.L, (starRingEnd ℂ) (A p k) * (P.res b c p * c p) := by
    funext k
    rw [Prob.dataU, hA']
    norm_num
  have eV : P.dataV b c = fun k => ((-2 : ℝ) : ℂ) * ∑ p ∈ range P.L, (starRingEnd ℂ) (D p k) * ((starRingEnd ℂ) (P.res b c p) * b p) := by
    funext k
    rw [Prob.dataV, hD']
    norm_num
  rw [eU, eV, inner_smul_left, inner_smul_left, adj_inner, adj_inner]
  simp only [inner, mul_sum, ← sum_add_distrib]
  refine sum_congr rfl fun i _ => ?_
  rw [← hA, ← hD]
  simp only [Complex.mul_re, Complex.mul_im, Complex.add_re, Complex.add_im, Complex.neg_re, Complex.neg_im, Complex.conj_re, Complex.conj_im]
  ring

/-- **C108.** Along every pair of differentiable curves of factors the cost has a derivative, and it is the inner product of the velocities with what `EucGrad` returns, whenever the penalty is off or `V` has exactly `L` entries. -/
theorem C108_gradient (P : Prob) (hP : P.rho = 0 ∨ P.kV = P.L) {U V : ℝ → Nat → ℂ} {U' V' : Nat → ℂ} {t : ℝ}
    (hU : ∀ k < P.kU, HasDerivAt (fun t => U t k) (U' k) t) (hV : ∀ k < P.kV, HasDerivAt (fun t => V t k) (V' k) t) :
    ∃ φ : ℝ → ℝ, ∃ G, (∀ s, P.f (U s) (V s) = some (φ s)) ∧ P.eucGrad (U t) (V t) = some G ∧
      HasDerivAt φ (inner P.kU G.1 U' + inner P.kV G.2 V') t := by
  obtain ⟨A, hA, hA'⟩ := fbu_matrix P
  obtain ⟨D, hD, hD'⟩ := fcv_matrix P
  have hb : ∀ i, HasDerivAt (fun t => P.fbu (U t) i) (P.fbu U' i) t := by
    intro i
    simp only [hA]
    exact deriv_matrix hU i
  have hc : ∀ i, HasDerivAt (fun t => P.fcv (V t) i) (P.fcv V' i) t := by
    intro i
    simp only [hD]
    exact deriv_matrix hV i
  have hdata : HasDerivAt (fun t => Prob.sq P.L (P.res (P.fbu (U t)) (P.fcv (V t))))
      (inner P.kU (P.dataU (P.fbu (U t)) (P.fcv (V t))) U' + inner P.kV (P.dataV (P.fbu (U t)) (P.fcv (V t))) V') t := by
    rw [data_inner]
    exact deriv_sq fun i _ => deriv_res P (hb i) (hc i)
  by_cases h0 : P.rho = 0
  · refine ⟨_, _, fun s => by rw [Prob.f]; exact if_pos h0, by rw [Prob.eucGrad]; exact if_pos h0, ?_⟩
    simpa using hdata
  · have hk : P.kV = P.L := hP.resolve_left h0
    have hn : ∀ V, P.vNorm V = some (Prob.sq P.L V) := fun V => by rw [Prob.vNorm, if_pos hk.ge]
    refine ⟨fun s => Prob.sq P.L (P.res (P.fbu (U s)) (P.fcv (V s))) + ∑ i ∈ range P.L,
        P.rho * P.excess (P.fbu (U s)) (Prob.sq P.L (V s)) i * P.excess (P.fbu (U s)) (Prob.sq P.L (V s)) i,
      (fun k => P.dataU (P.fbu (U t)) (P.fcv (V t)) k + adjVec P.L P.B (fft 1 P.n1 P.n2 fun i =>
          ((2 * P.tmp * P.rho * 2 * P.excess (P.fbu (U t)) (Prob.sq P.L (V t)) i * Prob.sq P.L (V t) : ℝ) : ℂ) * P.fbu (U t) i) k,
        fun k => P.dataV (P.fbu (U t)) (P.fcv (V t)) k + ((∑ i ∈ range P.L,
          2 * P.tmp * P.rho * Prob.rowNorm (P.fbu (U t)) i * 2 * P.excess (P.fbu (U t)) (Prob.sq P.L (V t)) i : ℝ) : ℂ) * V t k),
      fun s => by rw [Prob.f]; simp only [h0, if_false, hn], by rw [Prob.eucGrad]; simp only [h0, if_false, hn], ?_⟩
    have hw : HasDerivAt (fun t => Prob.sq P.L (V t)) (2 * inner P.L (V t) V') t := deriv_sq fun i hi => hV i (hk ▸ hi)
    have hex : ∀ i, HasDerivAt (fun t => P.rho * P.excess (P.fbu (U t)) (Prob.sq P.L (V t)) i * P.excess (P.fbu (U t)) (Prob.sq P.L (V t)) i)
        (P.rho * (2 * P.excess (P.fbu (U t)) (Prob.sq P.L (V t)) i *
          (P.tmp * (2 * ((P.fbu (U t) i).re * (P.fbu U' i).re + (P.fbu (U t) i).im * (P.fbu U' i).im)) * Prob.sq P.L (V t) +
            P.tmp * Prob.rowNorm (P.fbu (U t)) i * (2 * inner P.L (V t) V')))) t := by
      intro i
      have h1 : HasDerivAt (fun t => P.tmp * Prob.rowNorm (P.fbu (U t)) i * Prob.sq P.L (V t) - 1)
          (P.tmp * (2 * ((P.fbu (U t) i).re * (P.fbu U' i).re + (P.fbu (U t) i).im * (P.fbu U' i).im)) * Prob.sq P.L (V t) +
            P.tmp * Prob.rowNorm (P.fbu (U t)) i * (2 * inner P.L (V t) V')) t :=
        (((deriv_abs2 (hb i)).const_mul P.tmp).mul hw).sub_const 1
      have h2 := ((deriv_posPart_sq _).comp t h1).const_mul P.rho
      refine h2.congr_of_eventuallyEq (Filter.Eventually.of_forall fun s => ?_)
      simp only [Prob.excess, Function.comp]
      ring
    have hpen := HasDerivAt.fun_sum (u := range P.L) fun i _ => hex i
    refine (hdata.add hpen).congr_deriv ?_
    have eA : ∀ (z : Nat → ℂ), inner P.kU (adjVec P.L P.B (fft 1 P.n1 P.n2 z)) U' = inner P.L z (P.fbu U') := by
      intro z
      have e : adjVec P.L P.B (fft 1 P.n1 P.n2 z) = fun k => ∑ p ∈ range P.L, (starRingEnd ℂ) (A p k) * z p := funext fun k => hA' z k
      rw [e, adj_inner]
      congr 1
      exact funext fun i => (hA _ _).symm
    rw [inner_add_left, inner_add_left, eA, inner_smul_left, hk]
    have e1 : inner P.L (fun i => ((2 * P.tmp * P.rho * 2 * P.excess (P.fbu (U t)) (Prob.sq P.L (V t)) i * Prob.sq P.L (V t) : ℝ) : ℂ) * P.fbu (U t) i) (P.fbu U') =
        ∑ i ∈ range P.L, 2 * P.tmp * P.rho * 2 * P.excess (P.fbu (U t)) (Prob.sq P.L (V t)) i * Prob.sq P.L (V t) *
          ((P.fbu (U t) i).re * (P.fbu U' i).re + (P.fbu (U t) i).im * (P.fbu U' i).im) := by
      simp only [inner]
      refine sum_congr rfl fun i _ => ?_
      rw [Complex.re_ofReal_mul, Complex.im_ofReal_mul]
      ring
    rw [e1, sum_mul]
    have e2 : ∀ a b c d : ℝ, a + b + (c + d) = a + c + (b + d) := fun a b c d => by ring
    rw [e2, ← sum_add_distrib]
    congr 1
    refine sum_congr rfl fun i _ => ?_
    ring

/-- **C108.** With a non-negative weight the cost, where defined, is non-negative, and it is zero exactly when the measurements are reproduced and no row violates the incoherence bound. -/
theorem C108_zero (P : Prob) (h0 : 0 ≤ P.rho) (hk : P.rho = 0 ∨ P.kV = P.L) (U V : Nat → ℂ) : ∃ v, P.f U V = some v ∧ 0 ≤ v ∧
    (v = 0 ↔ ∀ i < P.L, P.y i = P.fbu U i * (starRingEnd ℂ) (P.fcv V i) ∧
      (P.rho ≠ 0 → P.L / (8 * P.d ^ 2 * P.mu ^ 2) * Complex.normSq (P.fbu U i) * (∑ k ∈ range P.L, Complex.normSq (V k)) ≤ 1)) := by
  have hsq : ∀ n v, Prob.sq n v = ∑ i ∈ range n, Complex.normSq (v i) := fun n v => by simp only [Prob.sq, Complex.normSq_apply]
  have hr : 0 ≤ Prob.sq P.L (P.res (P.fbu U) (P.fcv V)) := by
    rw [hsq]
    exact sum_nonneg fun i _ => Complex.normSq_nonneg _
  have hz : Prob.sq P.L (P.res (P.fbu U) (P.fcv V)) = 0 ↔ ∀ i < P.L, P.y i = P.fbu U i * (starRingEnd ℂ) (P.fcv V i) := by
    rw [hsq, sum_eq_zero_iff_of_nonneg fun i _ => Complex.normSq_nonneg _]
    simp only [mem_range, Complex.normSq_eq_zero, res_eq, sub_eq_zero]
  by_cases h : P.rho = 0
  · refine ⟨Prob.sq P.L (P.res (P.fbu U) (P.fcv V)) + 0, by rw [Prob.f]; exact if_pos h, by simpa using hr, ?_⟩
    rw [add_zero, hz]
    simp [h]
  · have hk' := hk.resolve_left h
    have hn : P.vNorm V = some (Prob.sq P.L V) := by rw [Prob.vNorm, if_pos hk'.ge]
    refine ⟨_, by rw [Prob.f]; simp only [h, if_false, hn]; rfl, ?_⟩
    have hp : ∀ i ∈ range P.L, 0 ≤ P.rho * P.excess (P.fbu U) (Prob.sq P.L V) i * P.excess (P.fbu U) (Prob.sq P.L V) i := fun i _ => by
      rw [mul_assoc]
      exact mul_nonneg h0 (mul_self_nonneg _)
    refine ⟨add_nonneg hr (sum_nonneg hp), ?_⟩
    rw [add_eq_zero_iff_of_nonneg hr (sum_nonneg hp), hz, sum_eq_zero_iff_of_nonneg hp]
    have ht : P.tmp = P.L / (8 * P.d ^ 2 * P.mu ^ 2) := by
      rw [Prob.tmp, div_div, div_div, div_div, div_div]
      congr 1
      ring
    constructor
    · rintro ⟨h1, h2⟩ i hi
      refine ⟨h1 i hi, fun _ => ?_⟩
      have h3 := h2 i (mem_range.mpr hi)
      rw [mul_assoc, mul_eq_zero, or_iff_right h, mul_self_eq_zero, Prob.excess, ht, hsq, Prob.rowNorm, ← Complex.normSq_apply] at h3
      by_cases h4 : P.L / (8 * P.d ^ 2 * P.mu ^ 2) * Complex.normSq (P.fbu U i) * (∑ k ∈ range P.L, Complex.normSq (V k)) - 1 < 0
      · linarith
      · rw [if_neg h4] at h3
        linarith
    · intro h1
      refine ⟨fun i hi => (h1 i hi).1, fun i hi => ?_⟩
      have h3 := (h1 i (mem_range.mp hi)).2 h
      rw [mul_assoc, mul_eq_zero, or_iff_right h, mul_self_eq_zero, Prob.excess, ht, hsq, Prob.rowNorm, ← Complex.normSq_apply]
      by_cases h4 : P.L / (8 * P.d ^ 2 * P.mu ^ 2) * Complex.normSq (P.fbu U i) * (∑ k ∈ range P.L, Complex.normSq (V k)) - 1 < 0
      · rw [if_pos h4]
      · rw [if_neg h4]
        linarith

/-- **C108.** With the penalty on and fewer than `L` entries in `V`, evaluating the cost and the gradient reads past the end of `V`. -/
theorem C108_penalty_reads_outside (P : Prob) (h0 : P.rho ≠ 0) (hk : P.kV < P.L) (U V : Nat → ℂ) : P.f U V = none ∧ P.eucGrad U V = none := by
  have hn : P.vNorm V = none := by rw [Prob.vNorm, if_neg (not_le.mpr hk)]
  constructor
  · rw [Prob.f]
    simp only [h0, if_false, hn]
  · rw [Prob.eucGrad]
    simp only [h0, if_false, hn]

/-- **C108.** What `EucHessianEta` returns is the derivative of the gradient along every pair of differentiable curves when the penalty is off. -/
theorem C108_hessian (P : Prob) (h0 : P.rho = 0) {U V : ℝ → Nat → ℂ} {U' V' : Nat → ℂ} {t : ℝ}
    (hU : ∀ k < P.kU, HasDerivAt (fun t => U t k) (U' k) t) (hV : ∀ k < P.kV, HasDerivAt (fun t => V t k) (V' k) t) :
    ∃ gU gV : ℝ → Nat → ℂ, (∀ s, P.eucGrad (U s) (V s) = some (gU s, gV s)) ∧
      (∀ k, HasDerivAt (fun s => gU s k) ((P.eucHess (U t) (V t) U' V').1 k) t) ∧
      ∀ k, HasDerivAt (fun s => gV s k) ((P.eucHess (U t) (V t) U' V').2 k) t := by
  obtain ⟨A, hA, hA'⟩ := fbu_matrix P
  obtain ⟨D, hD, hD'⟩ := fcv_matrix P
  have hb : ∀ i, HasDerivAt (fun t => P.fbu (U t) i) (P.fbu U' i) t := by
    intro i
    simp only [hA]
    exact deriv_matrix hU i
  have hc : ∀ i, HasDerivAt (fun t => P.fcv (V t) i) (P.fcv V' i) t := by
    intro i
    simp only [hD]
    exact deriv_matrix hV i
  refine ⟨fun s => P.dataU (P.fbu (U s)) (P.fcv (V s)), fun s => P.dataV (P.fbu (U s)) (P.fcv (V s)), fun s => by rw [Prob.eucGrad]; exact if_pos h0, ?_, ?_⟩
  · intro k
    simp only [Prob.dataU, Prob.eucHess, hA']
    have h := (HasDerivAt.fun_sum (u := range P.L) fun p _ => ((deriv_res P (hb p) (hc p)).mul (hc p)).const_mul ((starRingEnd ℂ) (A p k))).const_mul (-2 : ℂ)
    refine h.congr_deriv ?_
    simp only [mul_sum, ← sum_add_distrib]
    exact sum_congr rfl fun p _ => by ring
  · intro k
    simp only [Prob.dataV, Prob.eucHess, hD']
    have h := (HasDerivAt.fun_sum (u := range P.L) fun p _ => ((deriv_conj (deriv_res P (hb p) (hc p))).mul (hb p)).const_mul ((starRingEnd ℂ) (D p k))).const_mul (-2 : ℂ)
    refine h.congr_deriv ?_
    simp only [mul_sum, ← sum_add_distrib, map_neg]
    exact sum_congr rfl fun p _ => by ring

/-- **C108.** The Hessian is symmetric. -/
theorem C108_hessian_symmetric (P : Prob) (U V U₁ V₁ U₂ V₂ : Nat → ℂ) :
    inner P.kU (P.eucHess U V U₁ V₁).1 U₂ + inner P.kV (P.eucHess U V U₁ V₁).2 V₂ =
      inner P.kU U₁ (P.eucHess U V U₂ V₂).1 + inner P.kV V₁ (P.eucHess U V U₂ V₂).2 := by
  obtain ⟨A, hA, hA'⟩ := fbu_matrix P
  obtain ⟨D, hD, hD'⟩ := fcv_matrix P
  have key : ∀ X Y X' Y' : Nat → ℂ, inner P.kU (P.eucHess U V X Y).1 X' + inner P.kV (P.eucHess U V X Y).2 Y' =
      ∑ p ∈ range P.L, (2 * (((P.fbu U p * (starRingEnd ℂ) (P.fcv Y p) + P.fbu X p * (starRingEnd ℂ) (P.fcv V p)) *
          (starRingEnd ℂ) (P.fbu U p * (starRingEnd ℂ) (P.fcv Y' p) + P.fbu X' p * (starRingEnd ℂ) (P.fcv V p))).re) -
        2 * ((P.res (P.fbu U) (P.fcv V) p * (starRingEnd ℂ) (P.fbu X p * (starRingEnd ℂ) (P.fcv Y' p) + P.fbu X' p * (starRingEnd ℂ) (P.fcv Y p))).re)) := by
    intro X Y X' Y'
    have eU : (P.eucHess U V X Y).1 = fun k => ((2 : ℝ) : ℂ) * ∑ p ∈ range P.L, (starRingEnd ℂ) (A p k) * ((P.fbu U p * (starRingEnd ℂ) (P.fcv Y p) + P.fbu X p * (starRingEnd ℂ) (P.fcv V p)) * P.fcv V p) +
        ((-2 : ℝ) : ℂ) * ∑ p ∈ range P.L, (starRingEnd ℂ) (A p k) * (P.res (P.fbu U) (P.fcv V) p * P.fcv Y p) := by
      funext k
      simp only [Prob.eucHess, hA']
      norm_num
    have eV : (P.eucHess U V X Y).2 = fun k => ((2 : ℝ) : ℂ) * ∑ p ∈ range P.L, (starRingEnd ℂ) (D p k) * ((starRingEnd ℂ) (P.fbu U p * (starRingEnd ℂ) (P.fcv Y p) + P.fbu X p * (starRingEnd ℂ) (P.fcv V p)) * P.fbu U p) +
        ((-2 : ℝ) : ℂ) * ∑ p ∈ range P.L, (starRingEnd ℂ) (D p k) * ((starRingEnd ℂ) (P.res (P.fbu U) (P.fcv V) p) * P.fbu X p) := by
      funext k
      simp only [Prob.eucHess, hD']
      norm_num
    rw [eU, eV, inner_add_left, inner_add_left, inner_smul_left, inner_smul_left, inner_smul_left, inner_smul_left, adj_inner, adj_inner, adj_inner, adj_inner]
    simp only [inner, mul_sum, ← sum_add_distrib]
    refine sum_congr rfl fun p _ => ?_
    rw [← hA, ← hD]
    simp only [Complex.mul_re, Complex.mul_im, Complex.add_re, Complex.add_im, Complex.conj_re, Complex.conj_im]
    ring
  rw [key, inner_comm P.kU U₁, inner_comm P.kV V₁, key]
  refine sum_congr rfl fun p _ => ?_
  simp only [Complex.mul_re, Complex.mul_im, Complex.add_re, Complex.add_im, Complex.conj_re, Complex.conj_im]
  ring

/-- A problem of one measurement with the penalty on. -/
noncomputable def exampleProb : Prob where
  n1 := 1
  n2 := 1
  kU := 1
  kV := 1
  y := fun _ => 3
  B := fun _ _ => 2
  C := fun _ _ => Complex.I
  rho := 1
  d := 1 / 2
  mu := 1
  junk := fun _ => 0

/-- The problem meets the hypotheses of the theorems above. -/
example : (exampleProb.rho = 0 ∨ exampleProb.kV = exampleProb.L) ∧ exampleProb.rho ≠ 0 := by
  simp [exampleProb, Prob.L]

/-- At `U = V = 1` the residual is `3 - 2 conj(i) = 3 + 2 i`, the row has squared norm 4 and the bound is exceeded by 1: the cost is `13 + 1`. -/
example : exampleProb.f (fun _ => 1) (fun _ => 1) = some 14 := by
  have hb : exampleProb.fbu (fun _ => 1) 0 = 2 := by simp [exampleProb, Prob.fbu, fft, mulVec, kernel]
  have hc : exampleProb.fcv (fun _ => 1) 0 = Complex.I := by
    simp [exampleProb, Prob.fcv, fft, mulVec, kernel, Prob.L, ihaar, upCols, upRows]
  have hL : exampleProb.L = 1 := rfl
  rw [Prob.f]
  have h0 : exampleProb.rho ≠ 0 := by simp [exampleProb]
  have hn : exampleProb.vNorm (fun _ => 1) = some 1 := by simp [Prob.vNorm, Prob.L, exampleProb, Prob.sq]
  have ht : exampleProb.tmp = 1 / 2 := by simp [Prob.tmp, Prob.L, exampleProb]; norm_num
  simp only [h0, if_false, hn]
  congr 1
  simp only [Prob.sq, hL, sum_range_one, Prob.res, Prob.excess, Prob.rowNorm, hb, hc, ht]
  simp [exampleProb]
  norm_num

end Verif.BlindDecon
