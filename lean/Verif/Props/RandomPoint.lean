import Mathlib.Algebra.MvPolynomial.Equiv
import Mathlib.MeasureTheory.Constructions.Pi
import Mathlib.MeasureTheory.Measure.Prod
import Mathlib.Analysis.RCLike.Basic
import Mathlib.Topology.Algebra.MvPolynomial
import Mathlib.MeasureTheory.Constructions.BorelSpace.Basic
import Mathlib.MeasureTheory.Constructions.BorelSpace.Real
import Mathlib.Algebra.Polynomial.Roots
import Mathlib.LinearAlgebra.Matrix.NonsingularInverse
import Mathlib.LinearAlgebra.Matrix.PosDef
import Mathlib.LinearAlgebra.Matrix.Rank
import Mathlib.LinearAlgebra.Matrix.ToLinearEquiv
import Verif.Manifold.RandomPoint
import Verif.Props.Random
import Verif.Props.Decomp

/-!
# C107: random points
-/

open Matrix MeasureTheory ProbabilityTheory Set

namespace Verif.RandomPoint

open Verif.Random Verif.Decomp Verif.Dense Verif.Elem
open scoped NNReal

variable {𝕜 : Type} [RCLike 𝕜]

/-! ## Zeros of polynomials -/

theorem null_eval (ν : Measure ℝ) [SigmaFinite ν] [NullSingletonClass ν] : ∀ (n : Nat) (P : MvPolynomial (Fin n) 𝕜), P ≠ 0 →
    ∀ᵐ x ∂Measure.pi (fun _ : Fin n => ν), MvPolynomial.eval (fun i => (x i : 𝕜)) P ≠ 0 := by
  intro n
  induction n with
  | zero =>
    intro P hP
    refine ae_of_all _ fun x h => hP ?_
    rw [MvPolynomial.eq_C_of_isEmpty P] at h ⊢
    simp at h
    simp [h]
  | succ n ih =>
    intro P hP
    have hQ : MvPolynomial.finSuccEquiv 𝕜 n P ≠ 0 := by
      intro h
      exact hP ((MvPolynomial.finSuccEquiv 𝕜 n).injective (by rw [h, map_zero]))
    have hL : (MvPolynomial.finSuccEquiv 𝕜 n P).leadingCoeff ≠ 0 := Polynomial.leadingCoeff_ne_zero.mpr hQ
    have h1 := ih _ hL
    have hsec : ∀ᵐ x' ∂Measure.pi (fun _ : Fin n => ν), ∀ᵐ y ∂ν, MvPolynomial.eval (fun i => ((Fin.cons y x' : Fin (n + 1) → ℝ) i : 𝕜)) P ≠ 0 := by
      filter_upwards [h1] with x' hx'
      have hne : Polynomial.map (MvPolynomial.eval fun i => (x' i : 𝕜)) (MvPolynomial.finSuccEquiv 𝕜 n P) ≠ 0 := by
        intro h
        have := congrArg (fun q => Polynomial.coeff q (MvPolynomial.finSuccEquiv 𝕜 n P).natDegree) h
        simp only [Polynomial.coeff_map, Polynomial.coeff_zero] at this
        exact hx' this
      have hfin : {y : ℝ | MvPolynomial.eval (fun i => ((Fin.cons y x' : Fin (n + 1) → ℝ) i : 𝕜)) P = 0}.Finite := by
        have hr := (Polynomial.finite_setOfPred_isRoot hne).preimage (f := fun y : ℝ => (y : 𝕜)) (fun a _ b _ h => RCLike.ofReal_injective h)
        refine hr.subset ?_
        intro y hy
        have e : (fun i => ((Fin.cons y x' : Fin (n + 1) → ℝ) i : 𝕜)) = Fin.cons (y : 𝕜) fun i => (x' i : 𝕜) := by
          funext i
          refine Fin.cases ?_ (fun j => ?_) i <;> simp
        have hy' : MvPolynomial.eval (fun i => ((Fin.cons y x' : Fin (n + 1) → ℝ) i : 𝕜)) P = 0 := hy
        rw [e, MvPolynomial.eval_eq_eval_mv_eval'] at hy'
        exact hy'
      rw [ae_iff]
      have e : {a : ℝ | ¬MvPolynomial.eval (fun i => ((Fin.cons a x' : Fin (n + 1) → ℝ) i : 𝕜)) P ≠ 0} = {y : ℝ | MvPolynomial.eval (fun i => ((Fin.cons y x' : Fin (n + 1) → ℝ) i : 𝕜)) P = 0} := by
        ext; simp
      rw [e]
      exact hfin.measure_zero ν
    have hc : Continuous fun x : Fin (n + 1) → ℝ => MvPolynomial.eval (fun i => (x i : 𝕜)) P := by
      refine (MvPolynomial.continuous_eval P).comp ?_
      exact continuous_pi fun i => RCLike.continuous_ofReal.comp (continuous_apply i)
    have hms : MeasurableSet {x : Fin (n + 1) → ℝ | MvPolynomial.eval (fun i => (x i : 𝕜)) P ≠ 0} := (isOpen_compl_singleton.preimage hc).measurableSet
    have hmp := measurePreserving_piFinSuccAbove (fun _ : Fin (n + 1) => ν) 0
    have hsw : MeasurePreserving (fun q : (Fin n → ℝ) × ℝ => (MeasurableEquiv.piFinSuccAbove (fun _ : Fin (n + 1) => ℝ) 0).symm q.swap)
        ((Measure.pi fun _ : Fin n => ν).prod ν) (Measure.pi fun _ : Fin (n + 1) => ν) :=
      (MeasurePreserving.symm _ hmp).comp Measure.measurePreserving_swap
    rw [← hsw.map_eq, ae_map_iff hsw.measurable.aemeasurable hms, Measure.ae_prod_iff_ae_ae (p := fun q : (Fin n → ℝ) × ℝ => MvPolynomial.eval (fun i => ((MeasurableEquiv.piFinSuccAbove (fun _ : Fin (n + 1) => ℝ) 0).symm q.swap i : 𝕜)) P ≠ 0) (hsw.measurable hms)]
    filter_upwards [hsec] with x' h
    filter_upwards [h] with y hy
    have e : (MeasurableEquiv.piFinSuccAbove (fun _ : Fin (n + 1) => ℝ) 0).symm (Prod.swap (x', y)) = (Fin.cons y x' : Fin (n + 1) → ℝ) := by
      funext i
      refine Fin.cases ?_ (fun j => ?_) i
      · simp [MeasurableEquiv.piFinSuccAbove]
      · simp [MeasurableEquiv.piFinSuccAbove]
    rw [e]
    exact hy

/-! ## Filling with normal numbers -/

/-- A buffer with the given first entries. -/
def ext {N : Nat} (w : Fin N → ℝ) : Nat → ℝ := fun k => if h : k < N then w ⟨k, h⟩ else 0

/-- Independent standard normal numbers. -/
noncomputable def gauss (N : Nat) : Measure (Fin N → ℝ) := Measure.pi fun _ => gaussianReal 0 1

instance : NullSingletonClass (gaussianReal 0 1) := nullSingletonClass_gaussianReal one_ne_zero

theorem fill_eq (u : Nat → ℝ) (hu : ∀ j, u j ≠ 1) (f N pos : Nat) : fill u (f + 1) N pos = some (ext (gaussEntries (f + 1) 0 1 N pos u), pos + 2 * N) := by
  rw [fill, randGaussian_eq u hu]
  simp only [Option.map_some, Option.some.injEq, Prod.mk.injEq, and_true]
  funext k
  rw [ext]
  split
  · next h => simp only [gaussEntries, randGaussian_eq u hu, Option.elim_some]
  · next h =>
    simp [List.getD, Nat.le_of_not_lt h]

theorem aemeasurable_entries (f N pos : Nat) : AEMeasurable (gaussEntries (f + 1) 0 1 N pos) draws := by
  refine ⟨fun u i => (boxMuller (u (pos + 2 * i)) (u (pos + 2 * i + 1)) + 0) * 1, ?_, ?_⟩
  · refine measurable_pi_iff.mpr fun i => ?_
    have h : Measurable fun u : Nat → ℝ => (u (pos + 2 * i.1), u (pos + 2 * i.1 + 1)) := by fun_prop
    exact ((measurable_boxMuller.comp h).add_const 0).mul_const 1
  · filter_upwards [draws_ne_one] with u hu
    funext i
    rw [gaussEntries, randGaussian_eq u hu f 0 1 N pos]
    simp

theorem fill_ae (f N pos : Nat) {S : (Fin N → ℝ) → Prop} (hS : ∀ᵐ w ∂gauss N, S w) :
    ∀ᵐ u ∂draws, ∃ w, S w ∧ fill u (f + 1) N pos = some (ext w, pos + 2 * N) := by
  have h : draws.map (gaussEntries (f + 1) 0 1 N pos) = gauss N := by
    rw [(C106_gaussian f 0 1 N pos).2, gauss]
    have : NNReal.mk ((1 : ℝ) ^ 2) (sq_nonneg _) = 1 := by ext; simp
    simp only [this, mul_one]
  rw [← h] at hS
  filter_upwards [draws_ne_one, ae_of_ae_map (aemeasurable_entries f N pos) hS] with u hu hs
  exact ⟨_, hs, fill_eq u hu f N pos⟩

/-! ## Matrices of full rank -/

/-- Only the zero vector is mapped to zero: the columns are linearly independent. -/
def FullRank {n p : Nat} (M : Matrix (Fin n) (Fin p) 𝕜) : Prop := ∀ v, M *ᵥ v = 0 → v = 0

theorem fullRank_iff {n p : Nat} (M : Matrix (Fin n) (Fin p) 𝕜) : FullRank M ↔ LinearIndependent 𝕜 fun j => M.col j := by
  rw [← Matrix.mulVec_injective_iff]
  constructor
  · intro h v w e
    have : M *ᵥ (v - w) = 0 := by rw [Matrix.mulVec_sub]; exact sub_eq_zero.mpr e
    exact sub_eq_zero.mp (h _ this)
  · intro h v e
    exact h (by rw [e, Matrix.mulVec_zero])

theorem fullRank_of_gram {n p : Nat} {M : Matrix (Fin n) (Fin p) 𝕜} (h : (Mᴴ * M).det ≠ 0) : FullRank M := by
  intro v hv
  refine Matrix.eq_zero_of_mulVec_eq_zero h ?_
  rw [← Matrix.mulVec_mulVec, hv, Matrix.mulVec_zero]

theorem ae_fullRank {n p N : Nat} (A : Matrix (Fin n) (Fin p) (MvPolynomial (Fin N) 𝕜)) (B : Matrix (Fin p) (Fin n) (MvPolynomial (Fin N) 𝕜))
    (hAB : ∀ x : Fin N → ℝ, B.map (MvPolynomial.eval fun i => (x i : 𝕜)) = (A.map (MvPolynomial.eval fun i => (x i : 𝕜)))ᴴ)
    (x0 : Fin N → ℝ) (h0 : (A.map (MvPolynomial.eval fun i => (x0 i : 𝕜)))ᴴ * A.map (MvPolynomial.eval fun i => (x0 i : 𝕜)) = 1) :
    ∀ᵐ x ∂gauss N, FullRank (A.map (MvPolynomial.eval fun i => (x i : 𝕜))) := by
  have key (x : Fin N → ℝ) : MvPolynomial.eval (fun i => (x i : 𝕜)) (B * A).det =
      ((A.map (MvPolynomial.eval fun i => (x i : 𝕜)))ᴴ * A.map (MvPolynomial.eval fun i => (x i : 𝕜))).det := by
    rw [RingHom.map_det, RingHom.mapMatrix_apply, Matrix.map_mul, hAB]
  have hP : (B * A).det ≠ 0 := by
    intro h
    have := key x0
    rw [h, h0] at this
    simp at this
  filter_upwards [null_eval (gaussianReal 0 1) N _ hP] with x hx
  rw [key] at hx
  exact fullRank_of_gram hx

/-- The polynomial reading one entry. -/
noncomputable def ent (𝕜 : Type) [RCLike 𝕜] (N k : Nat) : MvPolynomial (Fin N) 𝕜 := if h : k < N then MvPolynomial.X ⟨k, h⟩ else 0

theorem eval_ent {N : Nat} (x : Fin N → ℝ) (k : Nat) : MvPolynomial.eval (fun i => (x i : 𝕜)) (ent 𝕜 N k) = (ext x k : 𝕜) := by
  unfold ent ext
  split <;> simp

/-- The entries of a rectangular identity that starts at `off`, each entry taking `s` numbers. -/
def idEntries (s off n N : Nat) : Fin N → ℝ := fun k => if (k.1 - off) % s = 0 ∧ ((k.1 - off) / s) % n = ((k.1 - off) / s) / n then 1 else 0

theorem gram_id {n p : Nat} (hpn : p ≤ n) {M : Matrix (Fin n) (Fin p) 𝕜} (h : ∀ i j, M i j = if i.1 = j.1 then 1 else 0) : Mᴴ * M = 1 := by
  ext a b
  rw [Matrix.mul_apply, Finset.sum_eq_single (⟨a.1, by omega⟩ : Fin n)]
  · simp only [conjTranspose_apply, h, if_true, star_one, one_mul, Matrix.one_apply, Fin.ext_iff]
  · intro c _ hc
    have : c.1 ≠ a.1 := fun e => hc (Fin.ext e)
    simp [conjTranspose_apply, h, this]
  · simp

theorem ae_real {n p N : Nat} (hpn : p ≤ n) (off : Nat) (hN : off + n * p ≤ N) : ∀ᵐ x ∂gauss N, FullRank (view n p n fun k => ext x (off + k)) := by
  have := ae_fullRank (𝕜 := ℝ) (n := n) (p := p) (N := N) (of fun i j => ent ℝ N (off + (i + j * n))) (of fun j i => ent ℝ N (off + (i + j * n)))
    (fun x => by
      ext j i
      simp only [Matrix.map_apply, of_apply, conjTranspose_apply, eval_ent]
      simp)
    (idEntries 1 off n N)
    (gram_id hpn fun i j => by
      have hlt : off + (i.1 + j.1 * n) < N := lt_of_lt_of_le (Nat.add_lt_add_left (colMajor_lt i.2 j.2) off) hN
      rw [Matrix.map_apply, of_apply, eval_ent, ext, dif_pos hlt, idEntries]
      have e : off + (i.1 + j.1 * n) - off = i.1 + j.1 * n := by omega
      have hn : 0 < n := lt_of_le_of_lt (Nat.zero_le _) i.2
      simp only [e, Nat.mod_one, Nat.div_one, true_and, Nat.add_mul_mod_self_right, Nat.mod_eq_of_lt i.2, Nat.add_mul_div_right _ _ hn, Nat.div_eq_of_lt i.2, Nat.zero_add]
      split <;> simp)
  filter_upwards [this] with x hx
  have e : (view n p n fun k => ext x (off + k)) = Matrix.map (of fun (i : Fin n) (j : Fin p) => ent ℝ N (off + (i + j * n))) (MvPolynomial.eval fun i => ((x i : ℝ) : ℝ)) := by
    ext i j
    rw [Matrix.map_apply, of_apply]
    have := eval_ent (𝕜 := ℝ) x (off + (i.1 + j.1 * n))
    exact this.symm
  rw [e]
  exact hx

theorem ae_complex {n p N : Nat} (hpn : p ≤ n) (off : Nat) (hN : off + 2 * (n * p) ≤ N) : ∀ᵐ x ∂gauss N, FullRank (view n p n (cx fun k => ext x (off + k))) := by
  have := ae_fullRank (𝕜 := ℂ) (n := n) (p := p) (N := N)
    (of fun i j => ent ℂ N (off + 2 * (i + j * n)) + MvPolynomial.C Complex.I * ent ℂ N (off + (2 * (i + j * n) + 1)))
    (of fun j i => ent ℂ N (off + 2 * (i + j * n)) - MvPolynomial.C Complex.I * ent ℂ N (off + (2 * (i + j * n) + 1)))
    (fun x => by
      ext j i
      simp only [Matrix.map_apply, of_apply, conjTranspose_apply, map_add, map_sub, map_mul, eval_ent, MvPolynomial.eval_C]
      simp [sub_eq_add_neg])
    (idEntries 2 off n N)
    (gram_id hpn fun i j => by
      have hlt := colMajor_lt i.2 j.2
      have h1 : off + 2 * (i.1 + j.1 * n) < N := by omega
      have h2 : off + (2 * (i.1 + j.1 * n) + 1) < N := by omega
      simp only [Matrix.map_apply, of_apply, map_add, map_mul, eval_ent, MvPolynomial.eval_C, ext, dif_pos h1, dif_pos h2, idEntries]
      have e1 : off + 2 * (i.1 + j.1 * n) - off = 2 * (i.1 + j.1 * n) := by omega
      have e2 : (off + (2 * (i.1 + j.1 * n) + 1) - off) % 2 = 1 := by omega
      have hn : 0 < n := lt_of_le_of_lt (Nat.zero_le _) i.2
      have e3 : 2 * (i.1 + j.1 * n) / 2 = i.1 + j.1 * n := by omega
      have e4 : 2 * (i.1 + j.1 * n) % 2 = 0 := by omega
      simp only [e1, e2, e3, e4, true_and, Nat.add_mul_mod_self_right, Nat.mod_eq_of_lt i.2, Nat.add_mul_div_right _ _ hn, Nat.div_eq_of_lt i.2, Nat.zero_add]
      split <;> simp)
  filter_upwards [this] with x hx
  have e : (view n p n (cx fun k => ext x (off + k))) =
      Matrix.map (of fun (i : Fin n) (j : Fin p) => ent ℂ N (off + 2 * (i + j * n)) + MvPolynomial.C Complex.I * ent ℂ N (off + (2 * (i + j * n) + 1))) (MvPolynomial.eval fun i => (x i : ℂ)) := by
    ext i j
    rw [Matrix.map_apply, of_apply]
    have h1 := eval_ent (𝕜 := ℂ) x (off + 2 * (i.1 + j.1 * n))
    have h2 := eval_ent (𝕜 := ℂ) x (off + (2 * (i.1 + j.1 * n) + 1))
    simp only [map_add, map_mul, MvPolynomial.eval_C]
    have h1' : MvPolynomial.eval (fun i => (x i : ℂ)) (ent ℂ N (off + 2 * (i.1 + j.1 * n))) = (ext x (off + 2 * (i.1 + j.1 * n)) : ℂ) := h1
    have h2' : MvPolynomial.eval (fun i => (x i : ℂ)) (ent ℂ N (off + (2 * (i.1 + j.1 * n) + 1))) = (ext x (off + (2 * (i.1 + j.1 * n) + 1)) : ℂ) := h2
    rw [h1', h2']
    apply Complex.ext <;> simp [view, cx]
  rw [e]
  exact hx

theorem ae_real0 {n p : Nat} (hpn : p ≤ n) : ∀ᵐ x ∂gauss (n * p), FullRank (view n p n (ext x)) := by
  have := ae_real (N := n * p) hpn 0 (by omega)
  simpa only [Nat.zero_add] using this

theorem ae_complex0 {n p : Nat} (hpn : p ≤ n) : ∀ᵐ x ∂gauss (2 * (n * p)), FullRank (view n p n (cx (ext x))) := by
  have := ae_complex (N := 2 * (n * p)) hpn 0 (by omega)
  simpa only [Nat.zero_add] using this

/-! ## Theorems -/

/-- The contracts of `geqp3` and `orgqr` for matrices of one size. -/
structure QRContract (L : Lapack 𝕜) (n p : Nat) : Prop where
  qr : ∀ a, IsQR n p a (L.geqp3 n p a)
  org : ∀ F, IsOrg n (min n p) (min n p) F (L.orgqr n (min n p) (min n p) F.hhr F.tau)

theorem thin_new {L : Lapack 𝕜} {n p : Nat} (hL : QRContract L n p) (jq jr a : Nat → 𝕜) :
    ∃ Q R, (qrDecom L jq jr (Elt.new n p a)).qr = some (Q, R) ∧ ThinQR (view n p n a) (view n (min n p) n Q) (view (min n p) p (min n p) R) := by
  obtain ⟨⟨Q, R⟩, h⟩ := Option.isSome_iff_exists.mp (C105_qr_exists L jq jr (Elt.new n p a)).1
  refine ⟨Q, R, h, ?_⟩
  have := C105_qr L false n p a [.qr jq jr] rfl (hL.qr _) (fun F => hL.org F) h
  exact this

/-- **C107, points with orthonormal columns**: for every outcome of the random numbers for which the function returns, the columns of the point of the Stiefel and Grassmann manifold are orthonormal, also if the
columns of the random matrix are dependent; it returns with probability one, and then the columns of the point span the space of the columns of the random matrix. -/
theorem C107_stiefel {L : Lapack ℝ} {n p : Nat} (hpn : p ≤ n) (hL : QRContract L n p) (jq jr : Nat → ℝ) (f pos : Nat) :
    (∀ u f Q pos', stiefel L jq jr n p u f pos = some (Q, pos') → Qᵀ * Q = 1) ∧
    ∀ᵐ u ∂draws, ∃ Q a R, stiefel L jq jr n p u (f + 1) pos = some (Q, pos + 2 * (n * p)) ∧ fill u (f + 1) (n * p) pos = some (a, pos + 2 * (n * p)) ∧ Q * R = view n p n a ∧ FullRank R := by
  constructor
  · intro u f Q pos' h
    unfold stiefel at h
    split at h
    · cases h
    · next a q ha =>
      obtain ⟨Q0, R0, h1, h2⟩ := thin_new hL jq jr a
      rw [h1] at h
      simp only [Option.map_some, Option.some.injEq, Prod.mk.injEq] at h
      rw [← h.1, ← conjTranspose_eq_transpose_of_trivial]
      exact h2.orth
  · filter_upwards [fill_ae f (n * p) pos (ae_real0 hpn)] with u ⟨w, hw, hf⟩
    obtain ⟨Q0, R0, h1, h2⟩ := thin_new hL jq jr (ext w)
    refine ⟨view n (min n p) n Q0, ext w, view (min n p) p (min n p) R0, ?_, hf, h2.prod, ?_⟩
    · rw [stiefel, hf]
      simp [h1]
    · intro v hv
      refine hw v ?_
      rw [← h2.prod, ← Matrix.mulVec_mulVec, hv, Matrix.mulVec_zero]

/-- **C107, complex points with orthonormal columns**. -/
theorem C107_cstiefel {L : Lapack ℂ} {n p : Nat} (hpn : p ≤ n) (hL : QRContract L n p) (jq jr : Nat → ℂ) (f pos : Nat) :
    (∀ u f Q pos', cstiefel L jq jr n p u f pos = some (Q, pos') → Qᴴ * Q = 1) ∧
    ∀ᵐ u ∂draws, ∃ Q a R, cstiefel L jq jr n p u (f + 1) pos = some (Q, pos + 2 * (2 * (n * p))) ∧ fill u (f + 1) (2 * (n * p)) pos = some (a, pos + 2 * (2 * (n * p))) ∧
      Q * R = view n p n (cx a) ∧ FullRank R := by
  constructor
  · intro u f Q pos' h
    unfold cstiefel at h
    split at h
    · cases h
    · next a q ha =>
      obtain ⟨Q0, R0, h1, h2⟩ := thin_new hL jq jr (cx a)
      rw [h1] at h
      simp only [Option.map_some, Option.some.injEq, Prod.mk.injEq] at h
      rw [← h.1]
      exact h2.orth
  · filter_upwards [fill_ae f (2 * (n * p)) pos (ae_complex0 hpn)] with u ⟨w, hw, hf⟩
    obtain ⟨Q0, R0, h1, h2⟩ := thin_new hL jq jr (cx (ext w))
    refine ⟨view n (min n p) n Q0, ext w, view (min n p) p (min n p) R0, ?_, hf, h2.prod, ?_⟩
    · rw [cstiefel, hf]
      simp [h1]
    · intro v hv
      refine hw v ?_
      rw [← h2.prod, ← Matrix.mulVec_mulVec, hv, Matrix.mulVec_zero]

theorem posDef_of_fullRank {n : Nat} {G : Matrix (Fin n) (Fin n) ℝ} (h : FullRank G) : (G * Gᵀ).PosDef := by
  have hu : IsUnit G := Matrix.mulVec_injective_iff_isUnit.mp ((Matrix.mulVec_injective_iff).mpr ((fullRank_iff G).mp h))
  rw [← conjTranspose_eq_transpose_of_trivial]
  refine Matrix.PosDef.mul_conjTranspose_self G ?_
  exact Matrix.vecMul_injective_iff_isUnit.mpr hu

/-- **C107, symmetric positive definite points**: the point is always symmetric and positive semidefinite, and with probability one positive definite. -/
theorem C107_spd (n f pos : Nat) :
    (∀ u f X pos', spd n u f pos = some (X, pos') → X.PosSemidef) ∧ ∀ᵐ u ∂draws, ∃ X, spd n u (f + 1) pos = some (X, pos + 2 * (n * n)) ∧ X.PosDef := by
  constructor
  · intro u f X pos' h
    unfold spd at h
    split at h
    · cases h
    · next a q ha =>
      simp only [Option.some.injEq, Prod.mk.injEq] at h
      rw [← h.1, ← conjTranspose_eq_transpose_of_trivial]
      exact Matrix.posSemidef_self_mul_conjTranspose _
  · filter_upwards [fill_ae f (n * n) pos (ae_real0 le_rfl)] with u ⟨w, hw, hf⟩
    refine ⟨_, ?_, posDef_of_fullRank hw⟩
    rw [spd, hf]

/-- **C107, quotients of full-rank matrices**: with probability one the columns of the random factors are independent, for one real or complex factor and for two. No matrix with more columns than rows has
independent columns. -/
theorem C107_factors {m n p : Nat} (hm : p ≤ m) (hn : p ≤ n) (f pos : Nat) :
    (∀ᵐ u ∂draws, ∃ Y, symFixedRankQ n p u (f + 1) pos = some (Y, pos + 2 * (n * p)) ∧ FullRank Y) ∧
    (∀ᵐ u ∂draws, ∃ Y, csymFixedRankQ n p u (f + 1) pos = some (Y, pos + 2 * (2 * (n * p))) ∧ FullRank Y) ∧
    (∀ᵐ u ∂draws, ∃ G H, fixedRankQ2F m n p u (f + 1) pos = some ((G, H), pos + 2 * (m * p + n * p)) ∧ FullRank G ∧ FullRank H) ∧
    (∀ᵐ u ∂draws, ∃ G H, cfixedRankQ2F m n p u (f + 1) pos = some ((G, H), pos + 2 * (2 * (m * p) + 2 * (n * p))) ∧ FullRank G ∧ FullRank H) := by
  refine ⟨?_, ?_, ?_, ?_⟩
  · filter_upwards [fill_ae f (n * p) pos (ae_real0 hn)] with u ⟨w, hw, hf⟩
    exact ⟨_, by rw [symFixedRankQ, hf]; rfl, hw⟩
  · filter_upwards [fill_ae f (2 * (n * p)) pos (ae_complex0 hn)] with u ⟨w, hw, hf⟩
    exact ⟨_, by rw [csymFixedRankQ, hf]; rfl, hw⟩
  · have h1 := ae_real (N := m * p + n * p) hm 0 (by omega)
    have h2 := ae_real (N := m * p + n * p) hn (m * p) le_rfl
    simp only [Nat.zero_add] at h1
    filter_upwards [fill_ae f _ pos (h1.and h2)] with u ⟨w, hw, hf⟩
    exact ⟨_, _, by rw [fixedRankQ2F, hf]; rfl, hw.1, hw.2⟩
  · have h1 := ae_complex (N := 2 * (m * p) + 2 * (n * p)) hm 0 (by omega)
    have h2 := ae_complex (N := 2 * (m * p) + 2 * (n * p)) hn (2 * (m * p)) le_rfl
    simp only [Nat.zero_add] at h1
    filter_upwards [fill_ae f _ pos (h1.and h2)] with u ⟨w, hw, hf⟩
    exact ⟨_, _, by rw [cfixedRankQ2F, hf]; rfl, hw.1, hw.2⟩

/-- **C107, too many columns**: if the rank parameter exceeds the number of rows, no outcome is a matrix with independent columns. -/
theorem C107_too_many_columns {n p : Nat} (h : n < p) (M : Matrix (Fin n) (Fin p) 𝕜) : ¬FullRank M := by
  intro hM
  rw [fullRank_iff] at hM
  have := hM.fintype_card_le_finrank
  simp at this
  omega

/-- The contract of `gesvd` for matrices of one size. -/
def SVDContract (L : Lapack ℝ) (m n : Nat) : Prop := ∀ a, IsSVD m n a (L.gesvd m n a).1 (L.gesvd m n a).2.1 (L.gesvd m n a).2.2

theorem getOrth_orth {L : Lapack ℝ} {m r : Nat} (hr : r ≤ m) (hL : SVDContract L m r) (a : Nat → ℝ) : ∃ U, getOrth L m r a = some U ∧ Uᵀ * U = 1 := by
  have h := hL a
  refine ⟨_, rfl, ?_⟩
  obtain ⟨h1, h2, _, _⟩ := h
  simp only [conjTranspose_eq_transpose_of_trivial] at h1 h2
  have hk : min m r = r := Nat.min_eq_right hr
  have sq : ∀ {k r : Nat} (_ : k = r) (W : Matrix (Fin k) (Fin r) ℝ), W * Wᵀ = 1 → Wᵀ * W = 1 := by
    intro k r hkr W hW
    subst hkr
    exact mul_eq_one_comm.mp hW
  have h3 := sq hk _ h2
  rw [Matrix.transpose_mul, Matrix.mul_assoc, ← Matrix.mul_assoc (view m (min m r) m _)ᵀ]
  have e : (view m (min m r) m (L.gesvd m r a).1)ᵀ * view m (min m r) m (L.gesvd m r a).1 = 1 := h1
  simp only [Elt.new] at *
  rw [e, Matrix.one_mul]
  exact h3

/-- **C107, points of the fixed-rank manifold**: the two factors are orthonormal for every outcome and the stored factors multiply to the point; with probability one the middle factor is invertible and the point has rank exactly `r`. -/
theorem C107_fixedRankE {L : Lapack ℝ} {m n r : Nat} (hm : r ≤ m) (hn : r ≤ n) (hLm : SVDContract L m r) (hLn : SVDContract L n r) (f pos : Nat) :
    (∀ u f y pos', fixedRankE L m n r u f pos = some (y, pos') → y.x = y.U * y.D * y.Vᵀ ∧ y.Uᵀ * y.U = 1 ∧ y.Vᵀ * y.V = 1) ∧
    ∀ᵐ u ∂draws, ∃ y, fixedRankE L m n r u (f + 1) pos = some (y, pos + 2 * (m * r + n * r + r * r)) ∧ y.D.det ≠ 0 ∧ y.x.rank = r := by
  have key : ∀ u f y pos', fixedRankE L m n r u f pos = some (y, pos') → y.x = y.U * y.D * y.Vᵀ ∧ y.Uᵀ * y.U = 1 ∧ y.Vᵀ * y.V = 1 := by
    intro u f y pos' h
    unfold fixedRankE at h
    split at h
    · cases h
    next a p1 ha =>
    split at h
    next U b p2 hU hb =>
      split at h
      next V d p3 hV hd =>
        simp only [Option.some.injEq, Prod.mk.injEq] at h
        obtain ⟨rfl, _⟩ := h
        obtain ⟨U', hU', o1⟩ := getOrth_orth hm hLm a
        obtain ⟨V', hV', o2⟩ := getOrth_orth hn hLn b
        rw [hU] at hU'
        rw [hV] at hV'
        cases hU'
        cases hV'
        exact ⟨rfl, o1, o2⟩
      next => cases h
    next => cases h
  refine ⟨key, ?_⟩
  filter_upwards [draws_ne_one, fill_ae f (r * r) (pos + 2 * (m * r) + 2 * (n * r)) (ae_real0 le_rfl)] with u hu ⟨w, hw, hf⟩
  obtain ⟨U, hU, o1⟩ := getOrth_orth hm hLm (ext (gaussEntries (f + 1) 0 1 (m * r) pos u))
  obtain ⟨V, hV, o2⟩ := getOrth_orth hn hLn (ext (gaussEntries (f + 1) 0 1 (n * r) (pos + 2 * (m * r)) u))
  have hrun : fixedRankE L m n r u (f + 1) pos = some (⟨U * view r r r (ext w) * Vᵀ, U, view r r r (ext w), V⟩, pos + 2 * (m * r) + 2 * (n * r) + 2 * (r * r)) := by
    rw [fixedRankE, fill_eq u hu]
    simp only [hU, fill_eq u hu f (n * r), hV, hf]
  have hD : IsUnit (view r r r (ext w)) := Matrix.mulVec_injective_iff_isUnit.mp ((Matrix.mulVec_injective_iff).mpr ((fullRank_iff _).mp hw))
  refine ⟨⟨U * view r r r (ext w) * Vᵀ, U, view r r r (ext w), V⟩, ?_, ((Matrix.isUnit_iff_isUnit_det _).mp hD).ne_zero, ?_⟩
  · exact hrun.trans (by rw [show pos + 2 * (m * r) + 2 * (n * r) + 2 * (r * r) = pos + 2 * (m * r + n * r + r * r) by ring])
  · simp only
    have hrk : (view r r r (ext w)).rank = r := by rw [Matrix.rank_of_isUnit _ hD, Fintype.card_fin]
    apply le_antisymm
    · calc _ ≤ (U * view r r r (ext w)).rank := Matrix.rank_mul_le_left _ _
        _ ≤ (view r r r (ext w)).rank := Matrix.rank_mul_le_right _ _
        _ = r := hrk
    · have e : Uᵀ * (U * view r r r (ext w) * Vᵀ) * V = view r r r (ext w) := by
        rw [Matrix.mul_assoc U, ← Matrix.mul_assoc Uᵀ, o1, Matrix.one_mul, Matrix.mul_assoc, o2, Matrix.mul_one]
      calc r = (Uᵀ * (U * view r r r (ext w) * Vᵀ) * V).rank := by rw [e, hrk]
        _ ≤ (Uᵀ * (U * view r r r (ext w) * Vᵀ)).rank := Matrix.rank_mul_le_left _ _
        _ ≤ _ := Matrix.rank_mul_le_right _ _

/-- **C107, the unit sphere of a tangent space**: every returned point is a tangent vector of length one; a point is returned with probability one if the tangent space is not trivial, and never if it is. -/
theorem C107_sphereTx {d : Nat} (proj : (Fin d → ℝ) →ₗ[ℝ] (Fin d → ℝ)) (metric : (Fin d → ℝ) → (Fin d → ℝ) → ℝ) (hh : ∀ (c : ℝ) y, metric (c • y) (c • y) = c ^ 2 * metric y y)
    (hpos : ∀ y, proj y ≠ 0 → 0 < metric (proj y) (proj y)) (f pos : Nat) :
    (∀ u f y pos', sphereTx d proj metric u f pos = some (y, pos') → metric y y = 1 ∧ ∃ g, y = proj g) ∧
    (proj ≠ 0 → ∀ᵐ u ∂draws, ∃ y, sphereTx d proj metric u (f + 1) pos = some (y, pos + 2 * d)) ∧ (proj = 0 → ∀ u f, sphereTx d proj metric u f pos = none) := by
  have h00 : metric 0 0 = 0 := by
    have := hh 0 0
    simpa using this
  refine ⟨?_, ?_, ?_⟩
  · intro u f y pos' h
    unfold sphereTx at h
    split at h
    · cases h
    · next a q ha =>
      simp only at h
      by_cases hn : √(metric (proj fun i => a i) (proj fun i => a i)) = 0
      · rw [if_pos hn] at h; cases h
      · rw [if_neg hn] at h
        simp only [Option.some.injEq, Prod.mk.injEq] at h
        obtain ⟨rfl, _⟩ := h
        refine ⟨?_, (1 / √(metric (proj fun i => a i) (proj fun i => a i))) • fun i : Fin d => a i, by rw [map_smul]⟩
        have hp : 0 ≤ metric (proj fun i => a i) (proj fun i => a i) := by
          by_contra hneg
          exact hn (Real.sqrt_eq_zero_of_nonpos (le_of_lt (not_le.mp hneg)))
        rw [hh, div_pow, one_pow, Real.sq_sqrt hp, one_div, inv_mul_cancel₀]
        intro h0
        exact hn (by rw [h0, Real.sqrt_zero])
  · intro hne
    obtain ⟨g0, hg0⟩ : ∃ g, proj g ≠ 0 := by
      by_contra hc
      push Not at hc
      exact hne (LinearMap.ext hc)
    obtain ⟨i, hi⟩ : ∃ i, proj g0 i ≠ 0 := by
      by_contra hc
      push Not at hc
      exact hg0 (funext hc)
    let P : MvPolynomial (Fin d) ℝ := ∑ k, MvPolynomial.C (proj (Pi.single k 1) i) * MvPolynomial.X k
    have hev (x : Fin d → ℝ) : MvPolynomial.eval (fun k => ((x k : ℝ) : ℝ)) P = proj x i := by
      conv_rhs => rw [pi_eq_sum_univ' x]
      simp only [P, map_sum, map_mul, MvPolynomial.eval_C, MvPolynomial.eval_X, map_smul, Finset.sum_apply, Pi.smul_apply, smul_eq_mul]
      refine Finset.sum_congr rfl fun k _ => ?_
      rw [mul_comm]
    have hP : P ≠ 0 := by
      intro h
      have := hev g0
      rw [h, map_zero] at this
      exact hi this.symm
    have hS : ∀ᵐ w ∂gauss d, proj w ≠ 0 := by
      filter_upwards [null_eval (𝕜 := ℝ) (gaussianReal 0 1) d P hP] with w hw h
      have := hev w
      rw [h] at this
      exact hw this
    filter_upwards [fill_ae f d pos hS] with u ⟨w, hw, hf⟩
    have hwe : (fun i : Fin d => ext w i) = w := by
      funext j
      simp [ext]
    have hn : √(metric (proj w) (proj w)) ≠ 0 := (Real.sqrt_pos.mpr (hpos w hw)).ne'
    refine ⟨(1 / √(metric (proj w) (proj w))) • proj w, ?_⟩
    rw [sphereTx, hf]
    simp only [hwe]
    exact if_neg hn
  · rintro rfl u f
    unfold sphereTx
    split
    · rfl
    · simp [h00]

/-- **C107, products**: if the function of every component returns with probability one a point with its property after a fixed number of draws, so does the function of the product. -/
theorem C107_product {X : Type} (f : Nat) (l : List (((Nat → ℝ) → Nat → Nat → Option (X × Nat)) × Nat × (X → Prop)))
    (h : ∀ t ∈ l, ∀ pos, ∀ᵐ u ∂draws, ∃ x, t.1 u f pos = some (x, pos + t.2.1) ∧ t.2.2 x) : ∀ pos,
    ∀ᵐ u ∂draws, ∃ xs, product u f (l.map Prod.fst) pos = some (xs, pos + (l.map fun t => t.2.1).sum) ∧ List.Forall₂ (fun x t => t.2.2 x) xs l := by
  induction l with
  | nil => intro pos; exact ae_of_all _ fun u => ⟨[], rfl, List.Forall₂.nil⟩
  | cons t l ih =>
    intro pos
    filter_upwards [h t (by simp) pos, ih (fun s hs => h s (by simp [hs])) (pos + t.2.1)] with u ⟨x, hx, px⟩ ⟨xs, hxs, pxs⟩
    refine ⟨x :: xs, ?_, List.Forall₂.cons px pxs⟩
    simp only [List.map_cons, product, hx, hxs, Option.map_some, List.sum_cons, Nat.add_assoc]

/-! ## Concrete cases -/

/-- Householder factors and singular values of a column `(a, b)`; `orgqr` multiplies the reflectors. -/
noncomputable def L2 : Lapack ℝ where
  geqp3 := fun _ _ a =>
    if a 1 = 0 then ⟨a, fun _ => 0⟩
    else
      let b := √(a 0 ^ 2 + a 1 ^ 2)
      ⟨fun k => if k = 0 then b else a 1 / (a 0 - b), fun _ => (b - a 0) / b⟩
  orgqr := fun m _ k hhr tau p => if h : p % m < m ∧ p / m < m then fullQ m k ⟨hhr, tau⟩ ⟨p % m, h.1⟩ ⟨p / m, h.2⟩ else 0
  gesvd := fun _ _ a =>
    let b := √(a 0 ^ 2 + a 1 ^ 2)
    (fun k => if b = 0 then (if k = 0 then 1 else 0) else a k / b, fun _ => b, fun _ => 1)

theorem L2_refl (a : Nat → ℝ) (h : a 1 ≠ 0) :
    reflector 2 (L2.geqp3 2 1 a) 0 = !![a 0 / √(a 0 ^ 2 + a 1 ^ 2), a 1 / √(a 0 ^ 2 + a 1 ^ 2); a 1 / √(a 0 ^ 2 + a 1 ^ 2), -a 0 / √(a 0 ^ 2 + a 1 ^ 2)] := by
  have hp : 0 < a 0 ^ 2 + a 1 ^ 2 := by positivity
  obtain ⟨b, hb⟩ : ∃ b, b = √(a 0 ^ 2 + a 1 ^ 2) := ⟨_, rfl⟩
  have hb2 : b ^ 2 = a 0 ^ 2 + a 1 ^ 2 := by rw [hb, Real.sq_sqrt hp.le]
  have hb0 : b ≠ 0 := by
    rintro rfl
    simp at hb2
    linarith
  have hd : a 0 - b ≠ 0 := by
    intro e
    have : a 0 = b := by linarith
    rw [this] at hb2
    exact h (pow_eq_zero_iff (two_ne_zero)|>.mp (by linarith))
  ext i j
  fin_cases i <;> fin_cases j <;> simp [reflector, L2, h, hvec, vecMulVec_apply, ← hb] <;> field_simp <;> first | ring1 | linear_combination (b - a 0) * hb2

theorem L2_isQR (a : Nat → ℝ) : IsQR 2 1 a (L2.geqp3 2 1 a) where
  unitary := by
    intro i hi
    have hi0 : i = 0 := by simpa using hi
    subst hi0
    by_cases h : a 1 = 0
    · simp [reflector, L2, h]
    · rw [L2_refl a h]
      have hp : 0 < a 0 ^ 2 + a 1 ^ 2 := by positivity
      have hb2 := Real.sq_sqrt hp.le
      have hb0 := (Real.sqrt_pos.mpr hp).ne'
      ext i j
      fin_cases i <;> fin_cases j <;> simp [Matrix.mul_apply, Fin.sum_univ_two] <;> field_simp <;> linarith
  factor := by
    have e : fullQ 2 (min 2 1) (L2.geqp3 2 1 a) = reflector 2 (L2.geqp3 2 1 a) 0 := by simp [fullQ]
    rw [e]
    by_cases h : a 1 = 0
    · ext i j
      fin_cases i <;> fin_cases j <;> simp [reflector, L2, h, upper, view]
    · rw [L2_refl a h]
      have hp : 0 < a 0 ^ 2 + a 1 ^ 2 := by positivity
      have hb0 := (Real.sqrt_pos.mpr hp).ne'
      ext i j
      fin_cases i <;> fin_cases j <;> simp [L2, h, upper, view, Matrix.mul_apply] <;> field_simp

theorem L2_contract : QRContract L2 2 1 where
  qr := L2_isQR
  org := by
    intro F r c hc
    have h1 : (r.1 + c.1 * 2) % 2 = r.1 := by have := r.2; omega
    have h2 : (r.1 + c.1 * 2) / 2 = c.1 := by have := r.2; omega
    have h : (r.1 + c.1 * 2) % 2 < 2 ∧ (r.1 + c.1 * 2) / 2 < 2 := ⟨by rw [h1]; exact r.2, by rw [h2]; exact c.2⟩
    simp only [L2, dif_pos h]
    congr 1
    · exact Fin.ext h1
    · exact Fin.ext h2

theorem L2_svd : SVDContract L2 2 1 := by
  intro a
  obtain ⟨b, hb⟩ : ∃ b, b = √(a 0 ^ 2 + a 1 ^ 2) := ⟨_, rfl⟩
  have hb2 : b ^ 2 = a 0 ^ 2 + a 1 ^ 2 := by rw [hb, Real.sq_sqrt (by positivity)]
  have hz : b = 0 → a 0 = 0 ∧ a 1 = 0 := by
    rintro rfl
    constructor <;> nlinarith [sq_nonneg (a 0), sq_nonneg (a 1)]
  constructor
  · by_cases h : b = 0
    · ext i j
      have hi : i = ⟨0, by decide⟩ := Fin.ext (by have := i.2; simp at this; omega)
      have hj : j = ⟨0, by decide⟩ := Fin.ext (by have := j.2; simp at this; omega)
      subst hi hj
      simp [Matrix.mul_apply, view, L2, ← hb, h]
    · ext i j
      have hi : i = ⟨0, by decide⟩ := Fin.ext (by have := i.2; simp at this; omega)
      have hj : j = ⟨0, by decide⟩ := Fin.ext (by have := j.2; simp at this; omega)
      subst hi hj
      simp [Matrix.mul_apply, Fin.sum_univ_two, view, L2, ← hb, h]
      field_simp
      linarith
  · ext i j
    have hi : i = ⟨0, by decide⟩ := Fin.ext (by have := i.2; simp at this; omega)
    have hj : j = ⟨0, by decide⟩ := Fin.ext (by have := j.2; simp at this; omega)
    subst hi hj
    simp [Matrix.mul_apply, view, L2]
  · intro i _
    exact Real.sqrt_nonneg _
  · have hs : ∀ (A : Matrix (Fin 2) (Fin (min 2 1)) ℝ) (s : Fin (min 2 1) → ℝ) (B : Matrix (Fin (min 2 1)) (Fin 1) ℝ) i j,
        (A * diagonal s * B) i j = A i ⟨0, by decide⟩ * s ⟨0, by decide⟩ * B ⟨0, by decide⟩ j := by
      intro A s B i j
      have : ∀ k : Fin (min 2 1), k = ⟨0, by decide⟩ := fun k => Fin.ext (by have := k.2; simp at this; omega)
      rw [Matrix.mul_apply, Finset.sum_eq_single (⟨0, by decide⟩ : Fin (min 2 1)) (fun k _ hk => absurd (this k) hk) (by simp), Matrix.mul_diagonal]
    ext i j
    rw [hs]
    by_cases h : b = 0
    · have := hz h
      fin_cases i <;> fin_cases j <;> simp [view, L2, this]
    · fin_cases i <;> fin_cases j <;> simp [view, L2, ← hb, h]

example : ∀ᵐ u ∂draws, ∃ Q a R, stiefel L2 (fun _ => 7) (fun _ => 7) 2 1 u 1 0 = some (Q, 4) ∧ fill u 1 2 0 = some (a, 4) ∧ Q * R = view 2 1 2 a ∧ FullRank R :=
  (C107_stiefel (by omega) L2_contract (fun _ => 7) (fun _ => 7) 0 0).2

example : ∀ᵐ u ∂draws, ∃ y, fixedRankE L2 2 2 1 u 1 5 = some (y, 15) ∧ y.D.det ≠ 0 ∧ y.x.rank = 1 :=
  (C107_fixedRankE (by omega) (by omega) L2_svd L2_svd 0 5).2

/-- The tangent space of the circle at `(1, 0)`. -/
def tang : (Fin 2 → ℝ) →ₗ[ℝ] (Fin 2 → ℝ) where
  toFun := fun y i => if i = 0 then 0 else y 1
  map_add' := by intro x y; funext i; by_cases h : i = 0 <;> simp [h]
  map_smul' := by intro c y; funext i; by_cases h : i = 0 <;> simp [h]

example : ∀ᵐ u ∂draws, ∃ y, sphereTx 2 tang (fun a b => ∑ i, a i * b i) u 1 0 = some (y, 4) := by
  refine (C107_sphereTx tang (fun a b => ∑ i, a i * b i) ?_ ?_ 0 0).2.1 ?_
  · intro c y
    simp only [Fin.sum_univ_two, Pi.smul_apply, smul_eq_mul]
    ring
  · intro y h
    have h1 : y 1 ≠ 0 := by
      intro e
      exact h (by funext i; fin_cases i <;> simp [tang, e])
    simp only [Fin.sum_univ_two, tang, LinearMap.coe_mk, AddHom.coe_mk]
    norm_num
    positivity
  · intro h
    have := congrFun (LinearMap.congr_fun h fun _ => 1) 1
    simp [tang] at this

/-- A product of two symmetric positive definite matrices. -/
example : ∀ᵐ u ∂draws, ∃ xs, product u 1 [spd 3, spd 3] 0 = some (xs, 36) ∧ List.Forall₂ (fun x t => t.2.2 x) xs [(spd 3, 18, Matrix.PosDef), (spd 3, 18, Matrix.PosDef)] :=
  C107_product 1 [(spd 3, 18, Matrix.PosDef), (spd 3, 18, Matrix.PosDef)] (by
    intro t ht pos
    have e : t = (spd 3, 18, Matrix.PosDef) := by
      rcases List.mem_cons.mp ht with h | h
      · exact h
      · exact List.mem_singleton.mp h
    subst e
    exact (C107_spd 3 0 pos).2) 0

end Verif.RandomPoint
