import Mathlib.Analysis.SpecialFunctions.PolarCoord
import Mathlib.MeasureTheory.Function.JacobianOneDim
import Mathlib.Probability.Distributions.Gaussian.Real
import Mathlib.Probability.Independence.InfinitePi
import Verif.Others.Random

/-!
# C106: the distribution of the random numbers
-/

namespace Verif.Random

open Real MeasureTheory ProbabilityTheory Set
open scoped ENNReal NNReal

/-- The uniform distribution on `[0, 1]`. -/
noncomputable def unif : Measure ℝ := volume.restrict (Icc 0 1)

instance : IsProbabilityMeasure unif := ⟨by simp [unif]⟩

theorem measurable_boxMuller : Measurable fun p : ℝ × ℝ => boxMuller p.1 p.2 := by
  unfold boxMuller
  fun_prop

theorem angle_lintegral (g : ℝ → ℝ≥0∞) :
    ∫⁻ v in Icc (0 : ℝ) 1, g (cos ((1 - v) * (2 * π))) = ∫⁻ t in Ioo (-π) π, ENNReal.ofReal (1 / (2 * π)) * g (-cos t) := by
  have hp := pi_pos
  have him : (fun t : ℝ => 1 / 2 - t / (2 * π)) '' Ioo (-π) π = Ioo 0 1 := by
    ext v
    simp only [mem_image, mem_Ioo]
    constructor
    · rintro ⟨t, ⟨h1, h2⟩, rfl⟩
      have a : t / (2 * π) < 1 / 2 := by rw [div_lt_iff₀ (by positivity)]; linarith
      have b : -(1 / 2) < t / (2 * π) := by rw [lt_div_iff₀ (by positivity)]; linarith
      constructor <;> linarith
    · rintro ⟨h1, h2⟩
      refine ⟨(1 / 2 - v) * (2 * π), ⟨by nlinarith, by nlinarith⟩, ?_⟩
      field_simp
      ring
  have := lintegral_image_eq_lintegral_abs_deriv_mul (s := Ioo (-π) π) (f := fun t : ℝ => 1 / 2 - t / (2 * π)) (f' := fun _ => -(1 / (2 * π))) measurableSet_Ioo
    (fun x _ => by
      have := ((hasDerivAt_id x).div_const (2 * π)).const_sub (1 / 2)
      simpa using this.hasDerivWithinAt)
    (fun a _ b _ h => by
      have h' : a / (2 * π) = b / (2 * π) := by
        have : (1 : ℝ) / 2 - a / (2 * π) = 1 / 2 - b / (2 * π) := h
        linarith
      field_simp at h'
      exact h')
    (fun v => g (cos ((1 - v) * (2 * π))))
  rw [him] at this
  rw [← setLIntegral_congr Ioo_ae_eq_Icc, this]
  refine setLIntegral_congr_fun measurableSet_Ioo fun t _ => ?_
  have e : (1 - (1 / 2 - t / (2 * π))) * (2 * π) = t + π := by field_simp; ring
  simp only [e, cos_add_pi]
  rw [abs_neg, abs_of_pos (by positivity)]

theorem radius_lintegral (g : ℝ → ℝ≥0∞) :
    ∫⁻ u in Icc (0 : ℝ) 1, g (√(-2 * log (1 - u))) = ∫⁻ r in Ioi (0 : ℝ), ENNReal.ofReal (r * exp (-r ^ 2 / 2)) * g r := by
  have him : (fun r : ℝ => 1 - exp (-r ^ 2 / 2)) '' Ioi 0 = Ioo 0 1 := by
    ext v
    simp only [mem_image, mem_Ioo, mem_Ioi]
    constructor
    · rintro ⟨r, h, rfl⟩
      have a : exp (-r ^ 2 / 2) < 1 := by
        rw [exp_lt_one_iff]
        have : 0 < r ^ 2 := by positivity
        linarith
      have b := exp_pos (-r ^ 2 / 2)
      constructor <;> linarith
    · rintro ⟨h1, h2⟩
      have hl : log (1 - v) < 0 := log_neg (by linarith) (by linarith)
      refine ⟨√(-2 * log (1 - v)), sqrt_pos.mpr (by linarith), ?_⟩
      rw [sq_sqrt (by linarith)]
      have : -(-2 * log (1 - v)) / 2 = log (1 - v) := by ring
      rw [this, exp_log (by linarith)]
      ring
  have := lintegral_image_eq_lintegral_abs_deriv_mul (s := Ioi (0 : ℝ)) (f := fun r : ℝ => 1 - exp (-r ^ 2 / 2)) (f' := fun r => r * exp (-r ^ 2 / 2)) measurableSet_Ioi
    (fun x _ => by
      have h1 : HasDerivAt (fun r : ℝ => -r ^ 2 / 2) (-x) x := by
        have := ((hasDerivAt_pow 2 x).neg).div_const 2
        have e : -((2 : ℕ) * x ^ (2 - 1)) / 2 = -x := by norm_num; ring
        rw [e] at this
        exact this
      have := (h1.exp.const_sub 1).hasDerivWithinAt (s := Ioi 0)
      have e : -(exp (-x ^ 2 / 2) * -x) = x * exp (-x ^ 2 / 2) := by ring
      rw [e] at this
      exact this)
    (fun a ha b hb h => by
      have h' : exp (-a ^ 2 / 2) = exp (-b ^ 2 / 2) := by
        have : 1 - exp (-a ^ 2 / 2) = 1 - exp (-b ^ 2 / 2) := h
        linarith
      have h2 := exp_injective h'
      have ha' : (0 : ℝ) < a := ha
      have hb' : (0 : ℝ) < b := hb
      nlinarith)
    (fun u => g (√(-2 * log (1 - u))))
  rw [him] at this
  rw [← setLIntegral_congr Ioo_ae_eq_Icc, this]
  refine setLIntegral_congr_fun measurableSet_Ioi fun r hr => ?_
  have hr' : (0 : ℝ) < r := hr
  have e : √(-2 * log (1 - (1 - exp (-r ^ 2 / 2)))) = r := by
    rw [sub_sub_cancel, log_exp]
    have : -2 * (-r ^ 2 / 2) = r ^ 2 := by ring
    rw [this, sqrt_sq hr'.le]
  simp only [e]
  rw [abs_of_pos (by positivity)]

theorem pdf_mul (r t : ℝ) : gaussianPDF 0 1 (r * cos t) * gaussianPDF 0 1 (r * sin t) = ENNReal.ofReal (1 / (2 * π) * exp (-r ^ 2 / 2)) := by
  rw [gaussianPDF, gaussianPDF, ← ENNReal.ofReal_mul (gaussianPDFReal_nonneg _ _ _)]
  congr 1
  simp only [gaussianPDFReal, NNReal.coe_one, mul_one, sub_zero]
  have h : (√(2 * π))⁻¹ * (√(2 * π))⁻¹ = 1 / (2 * π) := by
    rw [← mul_inv, mul_self_sqrt (by positivity), one_div]
  have e : exp (-(r * cos t) ^ 2 / 2) * exp (-(r * sin t) ^ 2 / 2) = exp (-r ^ 2 / 2) := by
    rw [← exp_add]
    congr 1
    have := cos_sq_add_sin_sq t
    linear_combination (-r ^ 2 / 2) * this
  rw [← h, ← e]
  ring

/-- **C106, Box-Muller**: if the two numbers are independent and uniform on `[0, 1]`, `genrandnormal` returns a number with the standard normal distribution. -/
theorem C106_standard_normal : (unif.prod unif).map (fun p => boxMuller p.1 p.2) = gaussianReal 0 1 := by
  refine Measure.ext_of_lintegral _ fun f hf => ?_
  rw [lintegral_map hf measurable_boxMuller, lintegral_prod (fun a : ℝ × ℝ => f (boxMuller a.1 a.2)) (hf.comp measurable_boxMuller).aemeasurable]
  have hin (u : ℝ) : ∫⁻ v, f (boxMuller u v) ∂unif = ∫⁻ t in Ioo (-π) π, ENNReal.ofReal (1 / (2 * π)) * f (√(-2 * log (1 - u)) * (-cos t)) :=
    angle_lintegral fun c => f (√(-2 * log (1 - u)) * c)
  simp only [hin]
  rw [show unif = volume.restrict (Icc 0 1) from rfl,
    radius_lintegral fun r => ∫⁻ t in Ioo (-π) π, ENNReal.ofReal (1 / (2 * π)) * f (r * (-cos t))]
  have h1 : ∫⁻ x, f x ∂gaussianReal 0 1 = ∫⁻ x, f (-x) ∂gaussianReal 0 1 := by
    conv_lhs => rw [← neg_zero (G := ℝ), ← gaussianReal_map_neg]
    rw [lintegral_map hf measurable_neg]
  have hm : Measurable fun p : ℝ × ℝ => f (-p.1) * gaussianPDF 0 1 p.1 * gaussianPDF 0 1 p.2 :=
    ((hf.comp measurable_fst.neg).mul ((measurable_gaussianPDF 0 1).comp measurable_fst)).mul ((measurable_gaussianPDF 0 1).comp measurable_snd)
  have h2 : ∫⁻ x, f (-x) ∂gaussianReal 0 1 = ∫⁻ p : ℝ × ℝ, f (-p.1) * gaussianPDF 0 1 p.1 * gaussianPDF 0 1 p.2 := by
    rw [Measure.volume_eq_prod, lintegral_prod _ hm.aemeasurable, gaussianReal_of_var_ne_zero 0 one_ne_zero,
      lintegral_withDensity_eq_lintegral_mul volume (measurable_gaussianPDF 0 1) (g := fun x => f (-x)) (hf.comp measurable_neg)]
    refine lintegral_congr fun x => ?_
    change _ = ∫⁻ y : ℝ, f (-x) * gaussianPDF 0 1 x * gaussianPDF 0 1 y
    rw [lintegral_const_mul _ (measurable_gaussianPDF 0 1), lintegral_gaussianPDF_eq_one 0 one_ne_zero, mul_one, Pi.mul_apply, mul_comm]
  rw [h1, h2, ← lintegral_comp_polarCoord_symm]
  have ht : polarCoord.target = Ioi (0 : ℝ) ×ˢ Ioo (-π) π := rfl
  have hm2 : Measurable fun p : ℝ × ℝ => ENNReal.ofReal p.1 • (fun p : ℝ × ℝ => f (-p.1) * gaussianPDF 0 1 p.1 * gaussianPDF 0 1 p.2) (p.1 * cos p.2, p.1 * sin p.2) := by
    have hg : Measurable fun p : ℝ × ℝ => (p.1 * cos p.2, p.1 * sin p.2) := by fun_prop
    exact measurable_fst.ennreal_ofReal.mul (hm.comp hg)
  simp only [polarCoord_symm_apply]
  rw [ht, Measure.volume_eq_prod, ← Measure.prod_restrict, lintegral_prod _ hm2.aemeasurable]
  refine setLIntegral_congr_fun measurableSet_Ioi fun r hr => ?_
  have hr' : (0 : ℝ) < r := hr
  simp only
  rw [← lintegral_const_mul' _ _ ENNReal.ofReal_ne_top]
  refine lintegral_congr fun t => ?_
  rw [smul_eq_mul, mul_assoc (f _), pdf_mul, ENNReal.ofReal_mul hr'.le, ENNReal.ofReal_mul (by positivity)]
  rw [mul_neg]
  ring

/-- The first position from `p` on whose number is not one, if it comes before `f` further numbers. -/
theorem genNormal_eq (u : Nat → ℝ) (k : Nat) : ∀ f p, k < f → (∀ j < k, u (p + j) = 1) → u (p + k) ≠ 1 →
    genNormal u f p = some (boxMuller (u (p + k)) (u (p + k + 1)), p + k + 2) := by
  induction k with
  | zero =>
    intro f p hf _ hk
    obtain ⟨f, rfl⟩ := Nat.exists_eq_succ_of_ne_zero (by omega : f ≠ 0)
    have hk' : u p ≠ 1 := hk
    rw [genNormal]
    exact if_neg hk'
  | succ k ih =>
    intro f p hf h1 hk
    obtain ⟨f, rfl⟩ := Nat.exists_eq_succ_of_ne_zero (by omega : f ≠ 0)
    have h0 : u p = 1 := h1 0 (by omega)
    rw [genNormal]
    refine (if_pos (show (genReal u p).1 = 1 from h0)).trans ?_
    change genNormal u f (p + 1) = _
    have e (j : Nat) : p + 1 + j = p + (j + 1) := by omega
    rw [ih f (p + 1) (by omega) (fun j hj => by rw [e]; exact h1 (j + 1) (by omega)) (by rw [e]; exact hk), e]

theorem genNormal_none (u : Nat → ℝ) : ∀ f p, (∀ j < f, u (p + j) = 1) → genNormal u f p = none := by
  intro f
  induction f with
  | zero => intro p _; rfl
  | succ f ih =>
    intro p h
    have h0 : u p = 1 := h 0 (by omega)
    rw [genNormal]
    refine (if_pos (show (genReal u p).1 = 1 from h0)).trans ?_
    change genNormal u f (p + 1) = _
    exact ih (p + 1) fun j hj => by
      have : p + 1 + j = p + (j + 1) := by omega
      rw [this]; exact h (j + 1) (by omega)

/-- **C106, one draw**: `genrandnormal` returns for some number of rounds exactly if some number from the present position on is not one; it then uses the first such number and the one after it. For
numbers in `[0, 1]` the argument of the root is not negative and that of the logarithm is positive, so that the result is a number. -/
theorem C106_draw (u : Nat → ℝ) (hu : ∀ j, u j ∈ Icc (0 : ℝ) 1) (p : Nat) :
    ((∃ f, (genNormal u f p).isSome) ↔ ∃ k, u (p + k) ≠ 1) ∧
      ∀ f z q, genNormal u f p = some (z, q) → ∃ k, q = p + k + 2 ∧ (∀ j < k, u (p + j) = 1) ∧ 0 < 1 - u (p + k) ∧ 0 ≤ -2 * log (1 - u (p + k)) ∧
        z = √(-2 * log (1 - u (p + k))) * cos (2 * π * u (p + k + 1)) := by
  classical
  have key : ∀ f z q, genNormal u f p = some (z, q) → ∃ k, k < f ∧ (∀ j < k, u (p + j) = 1) ∧ u (p + k) ≠ 1 := by
    intro f z q h
    by_contra hn
    push Not at hn
    have : ∀ j < f, u (p + j) = 1 := by
      intro j
      induction j using Nat.strong_induction_on with
      | _ j ih =>
        intro hj
        exact hn j hj fun i hi => ih i hi (by omega)
    rw [genNormal_none u f p this] at h
    cases h
  refine ⟨⟨?_, ?_⟩, ?_⟩
  · rintro ⟨f, h⟩
    obtain ⟨⟨z, q⟩, hz⟩ := Option.isSome_iff_exists.mp h
    obtain ⟨k, _, _, hk⟩ := key f z q hz
    exact ⟨k, hk⟩
  · intro h
    have hfind := Nat.find_spec h
    have hmin : ∀ j < Nat.find h, u (p + j) = 1 := fun j hj => by
      have := Nat.find_min h hj
      push Not at this
      exact this
    exact ⟨Nat.find h + 1, by rw [genNormal_eq u (Nat.find h) _ p (by omega) hmin hfind]; rfl⟩
  · intro f z q h
    obtain ⟨k, hk, h1, hk1⟩ := key f z q h
    rw [genNormal_eq u k f p hk h1 hk1] at h
    simp only [Option.some.injEq, Prod.mk.injEq] at h
    obtain ⟨rfl, rfl⟩ := h
    have h0 := (hu (p + k)).1
    have h2 : u (p + k) < 1 := lt_of_le_of_ne (hu (p + k)).2 hk1
    have hl : log (1 - u (p + k)) ≤ 0 := log_nonpos (by linarith) (by linarith)
    refine ⟨k, rfl, h1, by linarith, by linarith, ?_⟩
    rw [boxMuller]
    congr 1
    have : (1 - u (p + k + 1)) * (2 * π) = 2 * π - 2 * π * u (p + k + 1) := by ring
    rw [this, cos_two_pi_sub]

/-- The sequences of independent numbers, uniform on `[0, 1]`. -/
noncomputable def draws : Measure (Nat → ℝ) := Measure.infinitePi fun _ => unif

instance : IsProbabilityMeasure draws := by unfold draws; infer_instance

theorem draws_ne_one : ∀ᵐ u ∂draws, ∀ j, u j ≠ 1 := by
  rw [ae_all_iff]
  intro j
  have h : draws.map (fun u => u j) = unif := Measure.infinitePi_map_eval _ j
  have h1 : ∀ᵐ x ∂unif, x ≠ 1 := by
    refine ae_restrict_of_ae ?_
    exact Measure.ae_ne volume 1
  rw [← h] at h1
  exact ae_of_ae_map (measurable_pi_apply j).aemeasurable h1

theorem randGaussian_eq (u : Nat → ℝ) (hu : ∀ j, u j ≠ 1) (f : Nat) (m v : ℝ) : ∀ n p,
    randGaussian u (f + 1) m v n p = some (List.ofFn fun i : Fin n => (boxMuller (u (p + 2 * i)) (u (p + 2 * i + 1)) + m) * v, p + 2 * n) := by
  intro n
  induction n with
  | zero => intro p; simp [randGaussian]
  | succ n ih =>
    intro p
    rw [randGaussian, genNormal_eq u 0 (f + 1) p (by omega) (by simp) (hu _)]
    simp only [ih, Nat.add_zero]
    rw [List.ofFn_succ]
    have e (i : Nat) : p + 2 + 2 * i = p + 2 * (i + 1) := by omega
    simp [e, Nat.mul_add, Nat.add_comm]

/-- The entries of the element after `RandGaussian`. -/
noncomputable def gaussEntries (f : Nat) (m v : ℝ) (n p : Nat) (u : Nat → ℝ) : Fin n → ℝ := fun i => ((randGaussian u f m v n p).elim [] Prod.fst).getD i 0

theorem pairs_law (g : ℝ → ℝ → ℝ) (hg : Measurable fun q : ℝ × ℝ => g q.1 q.2) (n p : Nat) :
    draws.map (fun u (i : Fin n) => g (u (p + 2 * i)) (u (p + 2 * i + 1))) = Measure.pi fun _ : Fin n => (unif.prod unif).map fun q => g q.1 q.2 := by
  have hinj : Function.Injective fun s : Fin n × Fin 2 => p + 2 * s.1.1 + s.2.1 := by
    rintro ⟨a, b⟩ ⟨c, d⟩ h
    simp only at h
    have h1 := b.2
    have h2 := d.2
    exact Prod.ext (Fin.ext (by simp only; omega)) (Fin.ext (by simp only; omega))
  have h1 : draws.map (fun u (s : Fin n × Fin 2) => u (p + 2 * s.1.1 + s.2.1)) = Measure.infinitePi fun _ : Fin n × Fin 2 => unif :=
    Measure.map_infinitePi_infinitePi_of_inj (P := fun _ : Nat => unif) hinj
  have h2 := Measure.infinitePi_map_curry (ι := Fin n) (κ := Fin 2) (fun _ _ => unif)
  rw [← h1, Measure.map_map (by fun_prop) (by fun_prop)] at h2
  have hw : Measurable fun w : Fin 2 → ℝ => (w 0, w 1) := by fun_prop
  have hG : Measurable fun w : Fin 2 → ℝ => g (w 0) (w 1) := hg.comp hw
  have h3 := Measure.infinitePi_map_pi (fun _ : Fin n => Measure.infinitePi fun _ : Fin 2 => unif) (f := fun _ w => g (w 0) (w 1)) (fun _ => hG)
  have hpair : (Measure.infinitePi fun _ : Fin 2 => unif).map (fun w => g (w 0) (w 1)) = (unif.prod unif).map fun q => g q.1 q.2 := by
    rw [← Measure.infinitePi_map_eval_prod (P := fun _ : Fin 2 => unif) (i := 0) (j := 1) (by decide), Measure.map_map hg (by fun_prop)]
    rfl
  have hF : Measurable fun (x : Fin n → Fin 2 → ℝ) (i : Fin n) => g (x i 0) (x i 1) := measurable_pi_iff.mpr fun i => hG.comp (measurable_pi_apply i)
  rw [← h2, Measure.map_map hF (by fun_prop)] at h3
  simp only [hpair] at h3
  have : IsProbabilityMeasure ((unif.prod unif).map fun q => g q.1 q.2) := Measure.isProbabilityMeasure_map hg.aemeasurable
  rw [← Measure.infinitePi_eq_pi]
  exact h3

theorem gaussian_affine (m v : ℝ) : (unif.prod unif).map (fun q => (boxMuller q.1 q.2 + m) * v) = gaussianReal (m * v) (NNReal.mk (v ^ 2) (sq_nonneg v)) := by
  have h : (fun q : ℝ × ℝ => (boxMuller q.1 q.2 + m) * v) = (fun x => x * v) ∘ (fun x => x + m) ∘ fun q => boxMuller q.1 q.2 := rfl
  rw [h, ← Measure.map_map (by fun_prop) ((by fun_prop : Measurable fun x : ℝ => x + m).comp measurable_boxMuller), ← Measure.map_map (by fun_prop) measurable_boxMuller,
    C106_standard_normal, gaussianReal_map_add_const, gaussianReal_map_mul_const, zero_add, mul_one, mul_comm]

/-- **C106, what RandGaussian produces**: `RandGaussian(m, v)` ends with probability one, uses two numbers for each entry, and its entries are independent, each normal with mean `m v` and variance
`v²`. -/
theorem C106_gaussian (f : Nat) (m v : ℝ) (n p : Nat) :
    (∀ᵐ u ∂draws, ∃ l, l.length = n ∧ randGaussian u (f + 1) m v n p = some (l, p + 2 * n)) ∧
      draws.map (gaussEntries (f + 1) m v n p) = Measure.pi fun _ : Fin n => gaussianReal (m * v) (NNReal.mk (v ^ 2) (sq_nonneg v)) := by
  constructor
  · filter_upwards [draws_ne_one] with u hu
    exact ⟨_, List.length_ofFn, randGaussian_eq u hu f m v n p⟩
  · have h : gaussEntries (f + 1) m v n p =ᵐ[draws] fun u i => (boxMuller (u (p + 2 * i)) (u (p + 2 * i + 1)) + m) * v := by
      filter_upwards [draws_ne_one] with u hu
      funext i
      rw [gaussEntries, randGaussian_eq u hu f m v n p]
      simp
    have hm : Measurable fun q : ℝ × ℝ => (boxMuller q.1 q.2 + m) * v := (measurable_boxMuller.add_const m).mul_const v
    rw [Measure.map_congr h, pairs_law (fun a b => (boxMuller a b + m) * v) hm]
    simp only [gaussian_affine]

/-- **C106, the documented distribution**: the header promises independent entries with mean `m` and variance `v`. For an element with at least one entry this is true exactly if `v = 1`, or
`v = 0` and `m = 0`. -/
theorem C106_documented_iff (f : Nat) (m : ℝ) (v : ℝ≥0) (n p : Nat) (hn : 0 < n) :
    draws.map (gaussEntries (f + 1) m v n p) = Measure.pi (fun _ : Fin n => gaussianReal m v) ↔ v = 1 ∨ (v = 0 ∧ m = 0) := by
  rw [(C106_gaussian f m v n p).2]
  have hv : NNReal.mk ((v : ℝ) ^ 2) (sq_nonneg _) = v ^ 2 := rfl
  rw [hv]
  constructor
  · intro h
    have h1 := congrArg (fun μ : Measure (Fin n → ℝ) => μ.map (Function.eval (⟨0, hn⟩ : Fin n))) h
    change Measure.map (Function.eval (⟨0, hn⟩ : Fin n)) (Measure.pi fun _ : Fin n => gaussianReal (m * v) (v ^ 2)) = Measure.map (Function.eval (⟨0, hn⟩ : Fin n)) (Measure.pi fun _ : Fin n => gaussianReal m v) at h1
    rw [(measurePreserving_eval (fun _ : Fin n => gaussianReal (m * v) (v ^ 2)) ⟨0, hn⟩).map_eq, (measurePreserving_eval (fun _ : Fin n => gaussianReal m v) ⟨0, hn⟩).map_eq,
      gaussianReal_ext_iff] at h1
    by_cases h0 : v = 0
    · exact Or.inr ⟨h0, by simpa [h0] using h1.1.symm⟩
    · refine Or.inl ?_
      have : v * v = v * 1 := by rw [mul_one, ← sq]; exact h1.2
      exact mul_left_cancel₀ h0 this
  · rintro (rfl | ⟨rfl, rfl⟩)
    · have h1 : (1 : ℝ≥0) ^ 2 = 1 := one_pow 2
      rw [NNReal.coe_one, mul_one, h1]
    · simp

/-- `RandUnform` in closed form. -/
theorem randUniform_eq (u : Nat → ℝ) (a b : ℝ) : ∀ n p, randUniform u a b n p = (List.ofFn fun i : Fin n => u (p + i) * (b - a) + a, p + n) := by
  intro n
  induction n with
  | zero => intro p; simp [randUniform]
  | succ n ih =>
    intro p
    simp only [randUniform, genReal, ih, List.ofFn_succ]
    have e (i : Nat) : p + 1 + i = p + (i + 1) := by omega
    simp [e]

/-- The uniform distribution on `[a, b]`. -/
noncomputable def unifOn (a b : ℝ) : Measure ℝ := ENNReal.ofReal (b - a)⁻¹ • volume.restrict (Icc a b)

theorem unif_affine (a b : ℝ) (hab : a < b) : unif.map (fun x => x * (b - a) + a) = unifOn a b := by
  have hd : 0 < b - a := by linarith
  refine Measure.ext_of_lintegral _ fun f hf => ?_
  rw [lintegral_map hf (by fun_prop), unifOn, lintegral_smul_measure]
  have him : (fun x : ℝ => x * (b - a) + a) '' Icc 0 1 = Icc a b := by
    ext y
    simp only [mem_image, mem_Icc]
    constructor
    · rintro ⟨x, ⟨h0, h1⟩, rfl⟩
      constructor <;> nlinarith
    · rintro ⟨h0, h1⟩
      refine ⟨(y - a) / (b - a), ⟨by apply div_nonneg <;> linarith, by rw [div_le_one hd]; linarith⟩, ?_⟩
      rw [div_mul_cancel₀ _ hd.ne', sub_add_cancel]
  have := lintegral_image_eq_lintegral_abs_deriv_mul (s := Icc (0 : ℝ) 1) (f := fun x : ℝ => x * (b - a) + a) (f' := fun _ => b - a) measurableSet_Icc
    (fun x _ => by
      have := ((hasDerivAt_id x).mul_const (b - a)).add_const a
      simpa using this.hasDerivWithinAt)
    (fun x _ y _ h => by
      have h' : x * (b - a) + a = y * (b - a) + a := h
      exact mul_right_cancel₀ hd.ne' (by linarith))
    f
  rw [him] at this
  rw [this, abs_of_pos hd, lintegral_const_mul' _ _ ENNReal.ofReal_ne_top, smul_eq_mul, ← mul_assoc, ← ENNReal.ofReal_mul (by positivity), inv_mul_cancel₀ hd.ne', ENNReal.ofReal_one, one_mul]
  rfl

/-- **C106, RandUnform**: for numbers in `[0, 1]` every entry lies in `[a, b]`, one number is used for each entry; and for independent uniform numbers the entries are independent and uniform on
`[a, b]`. -/
theorem C106_uniform (a b : ℝ) (hab : a < b) (n p : Nat) :
    (∀ u : Nat → ℝ, (∀ j, u j ∈ Icc (0 : ℝ) 1) → (randUniform u a b n p).2 = p + n ∧ (randUniform u a b n p).1.length = n ∧ ∀ x ∈ (randUniform u a b n p).1, x ∈ Icc a b) ∧
      draws.map (fun u (i : Fin n) => (randUniform u a b n p).1.getD i 0) = Measure.pi fun _ : Fin n => unifOn a b := by
  constructor
  · intro u hu
    rw [randUniform_eq]
    refine ⟨rfl, List.length_ofFn, ?_⟩
    intro x hx
    obtain ⟨i, rfl⟩ := (List.mem_ofFn' _ _).mp hx
    obtain ⟨h0, h1⟩ := hu (p + i)
    constructor <;> nlinarith
  · have h : (fun u (i : Fin n) => (randUniform u a b n p).1.getD i 0) = (fun (w : Fin n → ℝ) i => w i * (b - a) + a) ∘ fun u (i : Fin n) => u (p + i.1) := by
      funext u i
      simp [randUniform_eq]
    have h1 : draws.map (fun u (i : Fin n) => u (p + i.1)) = Measure.infinitePi fun _ : Fin n => unif :=
      Measure.map_infinitePi_infinitePi_of_inj (P := fun _ : Nat => unif) (f := fun i : Fin n => p + i.1) fun a b h => Fin.ext (by simp only at h; omega)
    rw [h, ← Measure.map_map (by fun_prop) (by fun_prop), h1, Measure.infinitePi_map_pi (fun _ : Fin n => unif) (f := fun _ x => x * (b - a) + a) (fun _ => by fun_prop)]
    have hp : IsProbabilityMeasure (unif.map fun x => x * (b - a) + a) := Measure.isProbabilityMeasure_map (by fun_prop)
    rw [Measure.infinitePi_eq_pi]
    simp only [unif_affine a b hab]

/-! ### Concrete cases -/

/-- A sequence whose first number must be drawn again. -/
noncomputable def u1 : Nat → ℝ := fun j => if j = 0 then 1 else 1 / 2

theorem u1_mem : ∀ j, u1 j ∈ Icc (0 : ℝ) 1 := by
  intro j
  unfold u1
  split_ifs <;> constructor <;> norm_num

example : ∃ f, (genNormal u1 f 0).isSome := (C106_draw u1 u1_mem 0).1.mpr ⟨1, by norm_num [u1]⟩

example : draws.map (gaussEntries 1 1 ((4 : ℝ≥0) : ℝ) 3 0) ≠ Measure.pi fun _ : Fin 3 => gaussianReal 1 4 := by
  intro h
  rcases (C106_documented_iff 0 1 4 3 0 (by omega)).mp h with h | ⟨h, _⟩ <;> norm_num at h

example : draws.map (gaussEntries 1 0 1 6 0) = Measure.pi fun _ : Fin 6 => gaussianReal 0 1 := by
  have := (C106_documented_iff 0 0 1 6 0 (by omega)).mpr (Or.inl rfl)
  simpa using this

example : ∀ x ∈ (randUniform u1 (-1) 3 5 0).1, x ∈ Icc (-1 : ℝ) 3 := ((C106_uniform (-1) 3 (by norm_num) 5 0).1 u1 u1_mem).2.2

end Verif.Random
