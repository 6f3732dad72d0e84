import Verif.Solver.SubDir
import Verif.Props.LBFGS
import Mathlib.Analysis.Convex.Combination
import Mathlib.Analysis.Convex.Topology
import Mathlib.Topology.Algebra.Module.FiniteDimension
import Mathlib.Analysis.Calculus.Deriv.Add
import Mathlib.Analysis.Calculus.Deriv.Mul
import Mathlib.Tactic.LinearCombination

/-!
# Search directions of the subgradient solvers (C91), their operators (C92), progress of the gradient sampling (C93)
-/

set_option linter.unusedSectionVars false

namespace Verif.SubDir

open Verif.QN
open scoped RealInnerProductSpace Classical

variable {E : Type*} [NormedAddCommGroup E] [InnerProductSpace ℝ E]

/-! ## Specification -/

/-- `v` is the vector of the convex hull of `S` that is shortest in the inner product `⟪·, H ·⟫`. -/
def ShortestIn (H : E →ₗ[ℝ] E) (S : Set E) (v : E) : Prop :=
  v ∈ convexHull ℝ S ∧ ∀ u ∈ convexHull ℝ S, ⟪v, H v⟫ ≤ ⟪u, H u⟫

/-- The subproblem is solved exactly, for every nonempty list of vectors. -/
def Exact (H : E →ₗ[ℝ] E) (hull : (E →ₗ[ℝ] E) → List E → E) : Prop :=
  ∀ W : List E, W ≠ [] → ShortestIn H {w | w ∈ W} (hull H W) ∧ ShortestIn LinearMap.id {w | w ∈ W} (hull LinearMap.id W)

/-- The inverse transport is the inverse of a linear isometry that satisfies the locking condition: it maps the direction to a multiple of its image under the differential of the retraction. -/
def Locked (R : Rays E) : Prop :=
  ∀ eta t, ∃ T : E ≃ₗᵢ[ℝ] E, (∀ g, R.invTr eta t g = T.symm g) ∧ T eta = R.beta eta t • R.dret eta t ∧ R.beta eta t ≠ 0

/-! ## Helper lemmas -/

theorem quad_expand {H : E →ₗ[ℝ] E} (h : IsSym H) (u v : E) (t : ℝ) :
    ⟪v + t • (u - v), H (v + t • (u - v))⟫ = ⟪v, H v⟫ + 2 * t * (⟪u, H v⟫ - ⟪v, H v⟫) + t ^ 2 * ⟪u - v, H (u - v)⟫ := by
  have e : ⟪v, H u⟫ = ⟪u, H v⟫ := by rw [real_inner_comm, h]
  simp only [map_add, map_smul, map_sub, inner_add_left, inner_add_right, inner_smul_left, inner_smul_right, inner_sub_left, inner_sub_right, conj_trivial, e]
  ring

theorem spd_nonneg {H : E →ₗ[ℝ] E} (h : IsSPD H) (v : E) : 0 ≤ ⟪v, H v⟫ := by
  by_cases hv : v = 0
  · simp [hv]
  · rw [real_inner_comm]; exact (h.2 v hv).le

theorem id_spd : IsSPD (LinearMap.id : E →ₗ[ℝ] E) := by simpa using scaledId_spd (E := E) one_pos

/-- Variational characterisation of the shortest vector. -/
theorem shortest_var {H : E →ₗ[ℝ] E} (h : IsSPD H) {S : Set E} {v : E} (hv : ShortestIn H S v) {u : E} (hu : u ∈ convexHull ℝ S) : ⟪v, H v⟫ ≤ ⟪u, H v⟫ := by
  by_contra hlt
  have hlt := not_le.mp hlt
  set q := ⟪u - v, H (u - v)⟫ with hq
  have hq0 : 0 ≤ q := spd_nonneg h _
  set δ := ⟪v, H v⟫ - ⟪u, H v⟫ with hδ
  have hδ0 : 0 < δ := by rw [hδ]; linarith
  set t := δ / (δ + q) with ht
  have hpos : 0 < δ + q := by linarith
  have ht0 : 0 < t := div_pos hδ0 hpos
  have ht1 : t ≤ 1 := (div_le_one hpos).mpr (by linarith)
  have hmem : v + t • (u - v) ∈ convexHull ℝ S := by
    have := (convex_convexHull ℝ S) hv.1 hu (by linarith : (0 : ℝ) ≤ 1 - t) ht0.le (by ring)
    convert this using 1
    rw [smul_sub, sub_smul, one_smul]
    abel
  have := hv.2 _ hmem
  rw [quad_expand h.1, ← hq] at this
  have h1 : t * (t * q) ≥ t * (2 * δ) := by rw [hδ]; nlinarith
  have h2 := le_of_mul_le_mul_left h1 ht0
  have h3 : t * (δ + q) = δ := div_mul_cancel₀ _ hpos.ne'
  nlinarith

theorem mem_hull {W : List E} {g : E} (h : g ∈ W) : g ∈ convexHull ℝ {w | w ∈ W} := subset_convexHull ℝ _ h

theorem incLoop_found (phi dphi : ℝ → ℝ) (f1 alpha c P hb : ℝ) (n : Nat) : ∀ a b step g, (incLoop phi dphi f1 alpha c P hb n a b step g).found = true →
    (incLoop phi dphi f1 alpha c P hb n a b step g).gstep = (incLoop phi dphi f1 alpha c P hb n a b step g).step ∧
      0 ≤ dphi (incLoop phi dphi f1 alpha c P hb n a b step g).step + alpha * P := by
  induction n with
  | zero => intro a b step g h; simp [incLoop] at h
  | succ n ih =>
    intro a b step g h
    rw [incLoop] at h ⊢
    by_cases h1 : dphi step + alpha * P < 0
    · rw [if_pos h1] at h ⊢
      dsimp only at h ⊢
      by_cases h2 : hb > phi ((a + b) / 2) - f1 + alpha * c * P
      · rw [if_pos h2] at h ⊢; exact ih _ _ _ _ h
      · rw [if_neg h2] at h ⊢; exact ih _ _ _ _ h
    · rw [if_neg h1]
      exact ⟨rfl, not_lt.mp h1⟩

/-! ## C91: the direction -/

/-- What holds of the members whenever the last pass of the loop got to the subproblem. -/
structure DirOK (p : Par) (R : Rays E) (H : E →ₗ[ℝ] E) (f1 : ℝ) (gf1 : E) (d : Dir E) : Prop where
  first : gf1 ∈ d.used
  sub : ∀ g ∈ d.used, g ∈ d.gfs
  shortest : ShortestIn H {w | w ∈ d.used} d.shortest
  value : d.P = ⟪d.shortest, H d.shortest⟫
  eta : d.eta1 = -H d.shortest
  inHull : d.minPv ∈ convexHull ℝ {w | w ∈ d.used}
  small : d.exit = .small → √⟪d.minPv, d.minPv⟫ ≤ p.Del
  large : d.exit ≠ .small → p.Del < √⟪d.minPv, d.minPv⟫ ∧ d.ndir = some (√⟪d.eta1, d.eta1⟫) ∧ √⟪d.eta1, d.eta1⟫ ≠ 0
  descent : d.exit = .descent → R.phi d.eta1 (p.Eps / √⟪d.eta1, d.eta1⟫) ≤ f1 - p.alpha * (p.Eps / √⟪d.eta1, d.eta1⟫) * d.P

theorem eta_ne {H : E →ₗ[ℝ] E} (h : IsSPD H) {v : E} (hv : v ≠ 0) : √⟪-H v, -H v⟫ ≠ 0 := by
  have h1 : H v ≠ 0 := by
    intro h0
    have := h.2 v hv
    rw [h0, inner_zero_left] at this
    exact lt_irrefl _ this
  rw [inner_neg_neg]
  exact (Real.sqrt_pos.mpr (real_inner_self_pos.mpr h1)).ne'

/-- In a pass that does not stop at line 254 the shortest vector is not zero. -/
theorem shortest_ne {H : E →ₗ[ℝ] E} {hull : (E →ₗ[ℝ] E) → List E → E} (hex : Exact H hull) {W : List E} (hW : W ≠ []) {Del lam : ℝ} (hDel : 0 ≤ Del)
    (hs : ¬ √⟪(if Del * lam < √⟪hull H W, H (hull H W)⟫ then hull H W else hull LinearMap.id W), (if Del * lam < √⟪hull H W, H (hull H W)⟫ then hull H W else hull LinearMap.id W)⟫ ≤ Del) :
    hull H W ≠ 0 := by
  intro h0
  split at hs
  · rw [h0, inner_zero_left, Real.sqrt_zero] at hs; exact hs hDel
  · have := (hex W hW).2.2 0 (by rw [← h0]; exact (hex W hW).1.1)
    simp only [LinearMap.id_coe, id_eq, inner_zero_left] at this
    rw [Real.sqrt_eq_zero_of_nonpos this] at hs
    exact hs hDel

theorem dirLoop_ok (p : Par) (R : Rays E) (H : E →ₗ[ℝ] E) (hull : (E →ₗ[ℝ] E) → List E → E) (f1 : ℝ) (gf1 : E) (h : IsSPD H) (hex : Exact H hull) (hDel : 0 ≤ p.Del) (n : Nat) :
    ∀ d : Dir E, gf1 ∈ d.gfs → (n = 0 → DirOK p R H f1 gf1 { d with exit := .exhausted }) → ∃ d', dirLoop p R H hull f1 n d = some d' ∧ DirOK p R H f1 gf1 d' := by
  induction n with
  | zero => intro d _ h0; exact ⟨_, rfl, h0 rfl⟩
  | succ n ih =>
    intro d hg _
    have hW : d.gfs ≠ [] := List.ne_nil_of_mem hg
    obtain ⟨hx1, hx2⟩ := hex d.gfs hW
    rw [dirLoop]
    dsimp only
    set v := hull H d.gfs with hv
    set m := (if p.Del * p.lambdaLower < √⟪v, H v⟫ then v else hull LinearMap.id d.gfs) with hm
    have hmem : m ∈ convexHull ℝ {w | w ∈ d.gfs} := by
      rw [hm]; split
      · exact hx1.1
      · exact hx2.1
    by_cases hs : √⟪m, m⟫ ≤ p.Del
    · rw [if_pos hs]
      exact ⟨_, rfl, hg, fun _ h => h, hx1, rfl, rfl, hmem, fun _ => hs, fun h => absurd rfl h, fun h => by cases h⟩
    · rw [if_neg hs]
      have hv0 : v ≠ 0 := shortest_ne hex hW hDel hs
      have hnd := eta_ne h hv0
      rw [if_neg hnd]
      by_cases hb : R.phi (-H v) (p.Eps / √⟪-H v, -H v⟫) - f1 + p.alpha * (p.Eps / √⟪-H v, -H v⟫) * ⟪v, H v⟫ ≤ 0
      · rw [if_pos hb]
        refine ⟨_, rfl, hg, fun _ h => h, hx1, rfl, rfl, hmem, (fun h => by cases h), fun _ => ⟨not_le.mp hs, rfl, hnd⟩, fun _ => ?_⟩
        dsimp only
        linarith
      · rw [if_neg hb]
        refine ih _ (List.mem_append_left _ hg) fun _ => ?_
        exact ⟨hg, fun _ h => List.mem_append_left _ h, hx1, rfl, rfl, hmem, (fun h => by cases h), fun _ => ⟨not_le.mp hs, rfl, hnd⟩, (fun h => by cases h)⟩

/-- **C91.** For every symmetric positive definite operator, number of gradients (at least two), objective, retraction and transport, with the subproblems solved exactly: no division by zero
happens; the direction makes an obtuse angle with the gradient at the iterate and with every gradient sampled up to the last subproblem, `⟪g, eta1⟫ ≤ -Pngfsq`; the slope handed
to the line search is at most `-Pngfsq` (also when the vector behind it has been replaced by the shortest vector in the other inner product), and it is negative unless the call ended with a
vector of length at most `Del`; that vector is a convex combination of the sampled gradients; a call that ended at line 264 has found sufficient decrease at distance `Eps`. -/
theorem C91_direction (p : Par) (R : Rays E) (H : E →ₗ[ℝ] E) (hull : (E →ₗ[ℝ] E) → List E → E) (f1 : ℝ) (gf1 : E) (h : IsSPD H) (hex : Exact H hull) (hDel : 0 ≤ p.Del)
    (len : Nat) (hlen : 2 ≤ len) (old : Dir E) :
    ∃ d, getSearchDir p R H hull f1 gf1 len old = some d ∧ gf1 ∈ d.used ∧
      (∀ g ∈ d.used, ⟪g, d.eta1⟫ ≤ -d.P) ∧ d.slope ≤ -d.P ∧ 0 ≤ d.P ∧
      d.minPv ∈ convexHull ℝ {w | w ∈ d.used} ∧
      (d.exit = .small → √⟪d.minPv, d.minPv⟫ ≤ p.Del) ∧
      (d.exit ≠ .small → 0 < d.P ∧ d.slope < 0 ∧ p.Del < √⟪d.minPv, d.minPv⟫ ∧ d.ndir = some (√⟪d.eta1, d.eta1⟫)) ∧
      (d.exit = .descent → ∃ t, t * √⟪d.eta1, d.eta1⟫ = p.Eps ∧ R.phi d.eta1 t ≤ f1 - p.alpha * t * d.P) := by
  obtain ⟨d, e, k⟩ := dirLoop_ok p R H hull f1 gf1 h hex hDel (len - 1) { old with gfs := [gf1] } (by simp) (fun h0 => by omega)
  have hall : ∀ g ∈ convexHull ℝ {w | w ∈ d.used}, ⟪g, d.eta1⟫ ≤ -d.P := by
    intro g hg
    rw [k.eta, k.value, inner_neg_right]
    have := shortest_var h k.shortest hg
    linarith
  have hP : 0 ≤ d.P := by rw [k.value]; exact spd_nonneg h _
  refine ⟨d, e, k.first, fun g hg => hall g (mem_hull hg), hall _ k.inHull, hP, k.inHull, k.small, fun hne => ?_, fun hd => ?_⟩
  · obtain ⟨h1, h2, h3⟩ := k.large hne
    have hPpos : 0 < d.P := by
      refine lt_of_le_of_ne hP fun h0 => h3 ?_
      have hs0 : d.shortest = 0 := by
        by_contra hs
        have := h.2 _ hs
        rw [real_inner_comm, ← k.value, ← h0] at this
        exact lt_irrefl _ this
      rw [k.eta, hs0, map_zero, neg_zero, inner_zero_left, Real.sqrt_zero]
    exact ⟨hPpos, lt_of_le_of_lt (hall _ k.inHull) (by linarith), h1, h2⟩
  · have hne : d.exit ≠ .small := by rw [hd]; decide
    obtain ⟨-, -, h3⟩ := k.large hne
    exact ⟨_, div_mul_cancel₀ _ h3, k.descent hd⟩

/-- **C91.** A gradient sampled at a point where the inner search found the function increasing lies outside the hull of the previous ones: its product with the direction is at least `-alpha Pngfsq`. -/
theorem new_gradient (p : Par) (R : Rays E) (hR : Locked R) (H : E →ₗ[ℝ] E) (v : E) (f1 c P hb : ℝ)
    (hf : (increasing (R.phi (-H v)) (R.dphi (-H v)) f1 p.alpha c P hb).found = true) :
    ⟪newGrad R (-H v) (increasing (R.phi (-H v)) (R.dphi (-H v)) f1 p.alpha c P hb), H v⟫ ≤ p.alpha * P := by
  obtain ⟨h1, h2⟩ := incLoop_found (R.phi (-H v)) (R.dphi (-H v)) f1 p.alpha c P hb 10 0 c c c hf
  set r := increasing (R.phi (-H v)) (R.dphi (-H v)) f1 p.alpha c P hb with hr
  change r.gstep = r.step at h1
  change 0 ≤ R.dphi (-H v) r.step + p.alpha * P at h2
  obtain ⟨T, ht1, ht2, ht3⟩ := hR (-H v) r.step
  have key : ⟪newGrad R (-H v) r, -H v⟫ = R.dphi (-H v) r.step := by
    rw [newGrad, h1, ht1, inner_smul_left, ← T.inner_map_map, T.apply_symm_apply, ht2, inner_smul_right, Rays.dphi]
    simp only [conj_trivial]
    field_simp
  rw [inner_neg_right] at key
  linarith

/-- The decrease of the squared length when a vector `g` with `⟪g, H v⟫ ≤ alpha P` is added. -/
theorem hull_decrease {H : E →ₗ[ℝ] E} (h : IsSPD H) {S S' : Set E} (hS : S ⊆ S') {v v' g : E} (hv : ShortestIn H S v) (hv' : ShortestIn H S' v') (hg : g ∈ S')
    {alpha L2 : ℝ} (hα1 : alpha < 1) (hgv : ⟪g, H v⟫ ≤ alpha * ⟪v, H v⟫) (hgL : ⟪g, H g⟫ ≤ L2) (hvL : ⟪v, H v⟫ ≤ L2) (hL : 0 < L2) :
    ⟪v', H v'⟫ ≤ ⟪v, H v⟫ - ((1 - alpha) * ⟪v, H v⟫) ^ 2 / (4 * L2) := by
  have hg' : g ∈ convexHull ℝ S' := subset_convexHull ℝ _ hg
  have hvm : v ∈ convexHull ℝ S' := convexHull_mono hS hv.1
  set P := ⟪v, H v⟫ with hP
  have hP0 : 0 ≤ P := spd_nonneg h v
  set a := ⟪g, H v⟫ with ha
  have esym : ⟪v, H g⟫ = a := by rw [ha, real_inner_comm, h.1]
  have hpar : 0 ≤ ⟪g + v, H (g + v)⟫ := spd_nonneg h _
  have hq : ⟪g - v, H (g - v)⟫ ≤ 4 * L2 := by
    simp only [map_add, map_sub, inner_add_left, inner_add_right, inner_sub_left, inner_sub_right, esym, ← ha, ← hP] at hpar ⊢
    linarith
  have hq0 : 0 ≤ ⟪g - v, H (g - v)⟫ := spd_nonneg h _
  have hcs : -P ≤ a ∨ a < -P := le_or_gt _ _
  set e := (1 - alpha) * P with he
  have he0 : 0 ≤ e := mul_nonneg (by linarith) hP0
  have hδ : e ≤ P - a := by rw [he]; linarith
  -- step along the segment
  have hseg : ∀ t : ℝ, 0 ≤ t → t ≤ 1 → ⟪v', H v'⟫ ≤ P + 2 * t * (a - P) + t ^ 2 * ⟪g - v, H (g - v)⟫ := by
    intro t h0 h1
    have := hv'.2 _ ((convex_convexHull ℝ S') hvm hg' (by linarith : (0 : ℝ) ≤ 1 - t) h0 (by ring))
    refine this.trans (le_of_eq ?_)
    rw [← quad_expand h.1]
    have : (1 - t) • v + t • g = v + t • (g - v) := by rw [smul_sub, sub_smul, one_smul]; abel
    rw [this]
  -- |a| ≤ L2, so 0 ≤ P - a ≤ 2 L2
  have hd2 : P - a ≤ 4 * L2 := by
    simp only [map_add, inner_add_left, inner_add_right, esym, ← ha, ← hP] at hpar
    linarith
  have hd0 : 0 ≤ P - a := le_trans he0 hδ
  have ht1 : (P - a) / (4 * L2) ≤ 1 := (div_le_one (by linarith)).mpr hd2
  have ht0 : 0 ≤ (P - a) / (4 * L2) := div_nonneg hd0 (by linarith)
  have hm := hseg _ ht0 ht1
  have h4 : (P - a) / (4 * L2) * (4 * L2) = P - a := div_mul_cancel₀ _ (by linarith)
  have h5 : ((P - a) / (4 * L2)) ^ 2 * ⟪g - v, H (g - v)⟫ ≤ ((P - a) / (4 * L2)) ^ 2 * (4 * L2) := mul_le_mul_of_nonneg_left hq (sq_nonneg _)
  have h6 : P + 2 * ((P - a) / (4 * L2)) * (a - P) + ((P - a) / (4 * L2)) ^ 2 * (4 * L2) = P - (P - a) ^ 2 / (4 * L2) := by
    have : (4 * L2) ≠ 0 := by linarith
    field_simp
    ring
  have h7 : e ^ 2 / (4 * L2) ≤ (P - a) ^ 2 / (4 * L2) := by
    refine div_le_div_of_nonneg_right ?_ (by linarith)
    nlinarith
  linarith

/-- **C93 (partial).** Whenever the inner search ends at a point where the function increases, the new gradient is outside the hull of the old ones and the next shortest
vector is shorter by an explicit amount: with all gradients of squared `H`-length at most `L2`, the squared length drops by at least `((1-alpha) P)² / (4 L2)`. -/
theorem C93_progress_partial (p : Par) (R : Rays E) (hR : Locked R) (H : E →ₗ[ℝ] E) (hull : (E →ₗ[ℝ] E) → List E → E) (h : IsSPD H) (hex : Exact H hull) (hα : p.alpha < 1)
    (W : List E) (hW : W ≠ []) (f1 c hb L2 : ℝ) (hL : 0 < L2)
    (hf : (increasing (R.phi (-H (hull H W))) (R.dphi (-H (hull H W))) f1 p.alpha c ⟪hull H W, H (hull H W)⟫ hb).found = true)
    (g : E) (hg : g = newGrad R (-H (hull H W)) (increasing (R.phi (-H (hull H W))) (R.dphi (-H (hull H W))) f1 p.alpha c ⟪hull H W, H (hull H W)⟫ hb))
    (hgL : ⟪g, H g⟫ ≤ L2) (hWL : ⟪hull H W, H (hull H W)⟫ ≤ L2) (hP : hull H W ≠ 0) :
    g ∉ convexHull ℝ {w | w ∈ W} ∧
      ⟪hull H (W ++ [g]), H (hull H (W ++ [g]))⟫ ≤ ⟪hull H W, H (hull H W)⟫ - ((1 - p.alpha) * ⟪hull H W, H (hull H W)⟫) ^ 2 / (4 * L2) := by
  have k := new_gradient p R hR H (hull H W) f1 c _ hb hf
  rw [← hg] at k
  refine ⟨fun hmem => ?_, ?_⟩
  · have := shortest_var h (hex W hW).1 hmem
    have hpos : 0 < ⟪hull H W, H (hull H W)⟫ := by rw [real_inner_comm]; exact h.2 _ hP
    nlinarith
  · exact hull_decrease h (S := {w | w ∈ W}) (S' := {w | w ∈ W ++ [g]}) (fun w hw => List.mem_append_left _ hw) (hex W hW).1 (hex _ (by simp)).1 (by simp) hα k hgL hWL hL

/-- **C93 (partial).** If every inner search ends at a point of increase, gradients have squared `H`-length at most `L2`, and `H` is bounded below by `m`, then a call that runs out of
gradients had at most `4 L2² / ((1-alpha) m Del²)²` passes: with more room it stops with a short vector or with sufficient decrease. -/
theorem C93_finite_partial (p : Par) (R : Rays E) (hR : Locked R) (H : E →ₗ[ℝ] E) (hull : (E →ₗ[ℝ] E) → List E → E) (h : IsSPD H) (hex : Exact H hull) (hDel : 0 ≤ p.Del) (hα : p.alpha < 1)
    (f1 : ℝ) (gf1 : E) (L2 m : ℝ) (hL : 0 < L2) (hm : 0 ≤ m) (hlow : ∀ v, m * ⟪v, v⟫ ≤ ⟪v, H v⟫) (hg1 : ⟪gf1, H gf1⟫ ≤ L2)
    (hbd : ∀ eta r, ⟪newGrad R eta r, H (newGrad R eta r)⟫ ≤ L2)
    (hfound : ∀ v hb, 0 < hb → hb = R.phi (-H v) (p.Eps / √⟪-H v, -H v⟫) - f1 + p.alpha * (p.Eps / √⟪-H v, -H v⟫) * ⟪v, H v⟫ → √⟪-H v, -H v⟫ ≠ 0 →
      (increasing (R.phi (-H v)) (R.dphi (-H v)) f1 p.alpha (p.Eps / √⟪-H v, -H v⟫) ⟪v, H v⟫ hb).found = true)
    (len : Nat) (old d : Dir E) (hd : getSearchDir p R H hull f1 gf1 len old = some d) (hexh : d.exit = .exhausted) :
    ((len - 1 : ℕ) : ℝ) * (((1 - p.alpha) * (m * p.Del ^ 2)) ^ 2 / (4 * L2)) ≤ L2 := by
  set dec := ((1 - p.alpha) * (m * p.Del ^ 2)) ^ 2 / (4 * L2) with hdec
  have main : ∀ n (d0 : Dir E) (B : ℝ), d0.gfs ≠ [] → 0 ≤ B → B ≤ L2 → ⟪hull H d0.gfs, H (hull H d0.gfs)⟫ ≤ B → dirLoop p R H hull f1 n d0 = some d → (n : ℝ) * dec ≤ B := by
    intro n
    induction n with
    | zero => intro d0 B _ hB _ _ _; simpa using hB
    | succ n ih =>
      intro d0 B hne hB hBL hPB hrun
      rw [dirLoop] at hrun
      dsimp only at hrun
      set v := hull H d0.gfs with hv
      obtain ⟨hx1, hx2⟩ := hex d0.gfs hne
      set mm := (if p.Del * p.lambdaLower < √⟪v, H v⟫ then v else hull LinearMap.id d0.gfs) with hmm
      by_cases hs : √⟪mm, mm⟫ ≤ p.Del
      · rw [if_pos hs] at hrun
        injection hrun with hrun
        rw [← hrun] at hexh
        cases hexh
      · rw [if_neg hs] at hrun
        have hv0 : v ≠ 0 := shortest_ne hex hne hDel hs
        have hnd := eta_ne h hv0
        rw [if_neg hnd] at hrun
        by_cases hb : R.phi (-H v) (p.Eps / √⟪-H v, -H v⟫) - f1 + p.alpha * (p.Eps / √⟪-H v, -H v⟫) * ⟪v, H v⟫ ≤ 0
        · rw [if_pos hb] at hrun
          injection hrun with hrun
          rw [← hrun] at hexh
          cases hexh
        · rw [if_neg hb] at hrun
          have hf := hfound v _ (not_le.mp hb) rfl hnd
          set g := newGrad R (-H v) (increasing (R.phi (-H v)) (R.dphi (-H v)) f1 p.alpha (p.Eps / √⟪-H v, -H v⟫) ⟪v, H v⟫
            (R.phi (-H v) (p.Eps / √⟪-H v, -H v⟫) - f1 + p.alpha * (p.Eps / √⟪-H v, -H v⟫) * ⟪v, H v⟫)) with hg
          have hprog := (C93_progress_partial p R hR H hull h hex hα d0.gfs hne f1 _ _ L2 hL hf g hg (hbd _ _) (hPB.trans hBL) hv0).2
          -- lower bound of P
          have hvv : p.Del ^ 2 ≤ ⟪v, v⟫ := by
            have hmin : ⟪mm, mm⟫ ≤ ⟪v, v⟫ := by
              rw [hmm]
              split
              · exact le_refl _
              · exact hx2.2 _ hx1.1
            have h1 : p.Del < √⟪mm, mm⟫ := not_le.mp hs
            have h2 : p.Del ^ 2 ≤ (√⟪mm, mm⟫) ^ 2 := pow_le_pow_left₀ hDel h1.le 2
            rw [Real.sq_sqrt real_inner_self_nonneg] at h2
            exact h2.trans hmin
          have hPlow : m * p.Del ^ 2 ≤ ⟪v, H v⟫ := (mul_le_mul_of_nonneg_left hvv hm).trans (hlow v)
          have hdecle : dec ≤ ((1 - p.alpha) * ⟪v, H v⟫) ^ 2 / (4 * L2) := by
            rw [hdec]
            refine div_le_div_of_nonneg_right ?_ (by linarith)
            refine pow_le_pow_left₀ (mul_nonneg (by linarith) (mul_nonneg hm (sq_nonneg _))) ?_ 2
            exact mul_le_mul_of_nonneg_left hPlow (by linarith)
          have hP' : ⟪hull H (d0.gfs ++ [g]), H (hull H (d0.gfs ++ [g]))⟫ ≤ B - dec := by
            linarith
          have hnn : 0 ≤ B - dec := (spd_nonneg h _).trans hP'
          have hdec0 : 0 ≤ dec := by rw [hdec]; positivity
          have := ih _ (B - dec) (by simp) hnn (by linarith) hP' hrun
          push_cast
          linarith
  refine main (len - 1) _ L2 (by simp) hL.le (le_refl _) ?_ hd
  refine ((hex [gf1] (by simp)).1.2 gf1 (mem_hull (by simp))).trans hg1

/-- **C93 (convex along rays).** If the gradients satisfy the subgradient inequality of a convex function along the rays, the inner search ends in its first test. -/
theorem C93_convex_found (phi dphi : ℝ → ℝ) (f1 alpha c P hb : ℝ) (hc : 0 < c) (hconv : phi c + dphi c * (0 - c) ≤ f1) (hhb : 0 < hb) (he : hb = phi c - f1 + alpha * c * P) :
    increasing phi dphi f1 alpha c P hb = ⟨c, c, true⟩ := by
  rw [increasing, incLoop, if_neg]
  intro h1
  have : (dphi c + alpha * P) * c < 0 := mul_neg_of_neg_of_pos h1 hc
  nlinarith

/-! ### The inner search can miss -/

/-- A piecewise linear function of one variable. -/
noncomputable def missF (x : ℝ) : ℝ :=
  if -1 / 4 ≤ x then x else if -1 / 2 ≤ x then -1 / 4 + 3 / 5 * (x + 1 / 4) else if -3 / 4 ≤ x then -2 / 5 - 8 / 5 * (x + 1 / 2) else 9 / 5 * (x + 3 / 4)

/-- Its derivative (from the right at the kinks). -/
noncomputable def missG (x : ℝ) : ℝ :=
  if -1 / 4 ≤ x then 1 else if -1 / 2 ≤ x then 3 / 5 else if -3 / 4 ≤ x then -8 / 5 else 9 / 5

theorem missG_right (x : ℝ) : HasDerivWithinAt missF (missG x) (Set.Ici x) x := by
  have lin : ∀ a b : ℝ, HasDerivWithinAt (fun y => a + b * y) b (Set.Ici x) x := by
    intro a b
    have := ((hasDerivAt_id x).const_mul b).const_add a
    simpa using this.hasDerivWithinAt
  unfold missG
  by_cases h1 : -1 / 4 ≤ x
  · rw [if_pos h1]
    refine (lin 0 1).congr (fun y hy => ?_) ?_
    · rw [missF, if_pos (h1.trans hy)]; ring
    · rw [missF, if_pos h1]; ring
  · rw [if_neg h1]
    have h1' := not_le.mp h1
    by_cases h2 : -1 / 2 ≤ x
    · rw [if_pos h2]
      refine ((lin (-1 / 10) (3 / 5)).congr_of_eventuallyEq ?_ ?_)
      · filter_upwards [self_mem_nhdsWithin, mem_nhdsWithin_of_mem_nhds (Iio_mem_nhds h1')] with y hy hy'
        rw [missF, if_neg (not_le.mpr hy'), if_pos (h2.trans hy)]; ring
      · rw [missF, if_neg h1, if_pos h2]; ring
    · rw [if_neg h2]
      have h2' := not_le.mp h2
      by_cases h3 : -3 / 4 ≤ x
      · rw [if_pos h3]
        refine ((lin (-6 / 5) (-8 / 5)).congr_of_eventuallyEq ?_ ?_)
        · filter_upwards [self_mem_nhdsWithin, mem_nhdsWithin_of_mem_nhds (Iio_mem_nhds h2')] with y hy hy'
          have : y < -1 / 2 := hy'
          rw [missF, if_neg (not_le.mpr (by linarith)), if_neg (not_le.mpr hy'), if_pos (h3.trans hy)]; ring
        · rw [missF, if_neg h1, if_neg h2, if_pos h3]; ring
      · rw [if_neg h3]
        have h3' := not_le.mp h3
        refine ((lin (27 / 20) (9 / 5)).congr_of_eventuallyEq ?_ ?_)
        · filter_upwards [self_mem_nhdsWithin, mem_nhdsWithin_of_mem_nhds (Iio_mem_nhds h3')] with y hy hy'
          have : y < -3 / 4 := hy'
          rw [missF, if_neg (not_le.mpr (by linarith)), if_neg (not_le.mpr (by linarith)), if_neg (not_le.mpr hy')]; ring
        · rw [missF, if_neg h1, if_neg h2, if_neg h3]; ring

/-- The real line with its usual retraction and transport. -/
noncomputable def missRays : Rays ℝ where
  phi eta t := missF (t * eta)
  grad eta t := missG (t * eta)
  dret eta _ := eta
  invTr _ _ g := g
  beta _ _ := 1

theorem missRays_locked : Locked missRays := fun eta t => ⟨LinearIsometryEquiv.refl ℝ ℝ, fun _ => rfl, by simp [missRays], by simp [missRays]⟩

theorem miss_loop (n : Nat) : ∀ b g : ℝ, 0 < b → b ≤ 1 / 2 → 0 < g → (n = 0 → g ≤ 1 / 4) → (n = 1 → b ≤ 1 / 4) →
    ∃ s g', incLoop (missRays.phi (-1)) (missRays.dphi (-1)) 0 (1 / 2) 1 1 (1 / 20) n 0 b b g = ⟨s, g', false⟩ ∧ 0 < g' ∧ g' ≤ 1 / 4 := by
  induction n with
  | zero => intro b g _ _ h3 h4 _; exact ⟨b, g, rfl, h3, h4 rfl⟩
  | succ n ih =>
    intro b g h1 h2 h3 _ h5
    have hd : missRays.dphi (-1) b + 1 / 2 * 1 < 0 := by
      simp only [Rays.dphi, missRays, missG, RCLike.inner_apply, conj_trivial]
      by_cases hb : -1 / 4 ≤ b * (-1)
      · rw [if_pos hb]; norm_num
      · rw [if_neg hb, if_pos (by linarith)]; norm_num
    have hp : ¬ (1 / 20 : ℝ) > missRays.phi (-1) ((0 + b) / 2) - 0 + 1 / 2 * 1 * 1 := by
      simp only [missRays, missF]
      rw [if_pos (by linarith)]
      intro hc
      linarith
    rw [incLoop, if_pos hd]
    dsimp only
    rw [if_neg hp]
    refine ih _ b (by linarith) (by linarith) h1 (fun hn => h5 (by omega)) (fun _ => by linarith)

/-- **C93 (violated): the inner search can miss the points of increase.** It compares with `LS_alpha * Eps / neta1 * Pngfsq` where the step of the trial point belongs. For this Lipschitz function on
the real line (slope 1 at the point 0, where the search starts; identity operator, `LS_alpha = 1/2`, `Eps = 1`) there is no sufficient decrease at distance `Eps`, the function
satisfies the test of line 288 on a whole interval, but the bisection moves away from it: the gradient returned is the one already known, so the call ends with all places
filled by copies of it, no short vector and no decrease, whatever the number of places. -/
theorem C93_increasing_misses (hull : (ℝ →ₗ[ℝ] ℝ) → List ℝ → ℝ) (hex : Exact LinearMap.id hull) (len : Nat) (hlen : 2 ≤ len) (old : Dir ℝ) :
    (∀ t, 1 / 2 < t → t < 3 / 4 → 0 ≤ missRays.dphi (-1) t + 1 / 2 * 1) ∧
    ∃ d, getSearchDir ⟨1, 1 / 100, 1 / 100, 1 / 2⟩ missRays LinearMap.id hull (missF 0) (missG 0) len old = some d ∧ d.exit = .exhausted ∧ d.P = 1 ∧ d.gfs = List.replicate len 1 := by
  refine ⟨fun t h1 h2 => ?_, ?_⟩
  · simp only [Rays.dphi, missRays, missG, RCLike.inner_apply, conj_trivial]
    rw [if_neg (by intro h; linarith), if_neg (by intro h; linarith), if_pos (by linarith)]
    norm_num
  have hF : missF 0 = 0 := by rw [missF, if_pos (by norm_num)]
  have hG : missG 0 = 1 := by rw [missG, if_pos (by norm_num)]
  have hinc : ∃ s g', increasing (missRays.phi (-1)) (missRays.dphi (-1)) 0 (1 / 2) 1 1 (1 / 20) = ⟨s, g', false⟩ ∧ 0 < g' ∧ g' ≤ 1 / 4 := by
    rw [increasing, incLoop, if_pos]
    · dsimp only
      rw [if_neg]
      · rw [show ((0 : ℝ) + 1) / 2 = 1 / 2 by norm_num]
        exact miss_loop 9 (1 / 2) 1 (by norm_num) (by norm_num) (by norm_num) (fun h => by omega) (fun h => by omega)
      · simp only [missRays, missF]
        rw [if_neg (by norm_num), if_pos (by norm_num)]
        norm_num
    · simp only [Rays.dphi, missRays, missG, RCLike.inner_apply, conj_trivial]
      rw [if_neg (by norm_num), if_neg (by norm_num), if_neg (by norm_num)]
      norm_num
  have hone : ∀ W : List ℝ, W ≠ [] → (∀ w ∈ W, w = 1) → hull LinearMap.id W = 1 := by
    intro W hW hw
    have hmem := (hex W hW).1.1
    have hsub : convexHull ℝ {w | w ∈ W} ⊆ {1} := convexHull_min (fun w hw' => hw w hw') (convex_singleton 1)
    exact hsub hmem
  have main : ∀ n k (d : Dir ℝ), d.gfs = List.replicate (k + 1) 1 → (n = 0 → d.P = 1) →
      ∃ d', dirLoop ⟨1, 1 / 100, 1 / 100, 1 / 2⟩ missRays LinearMap.id hull (missF 0) n d = some d' ∧ d'.exit = .exhausted ∧ d'.P = 1 ∧ d'.gfs = List.replicate (k + 1 + n) 1 := by
    intro n
    induction n with
    | zero => intro k d h1 h2; exact ⟨_, rfl, rfl, h2 rfl, h1⟩
    | succ n ih =>
      intro k d h1 _
      have hv := hone d.gfs (by rw [h1]; simp) (by rw [h1]; intro w hw; exact List.eq_of_mem_replicate hw)
      rw [dirLoop]
      dsimp only
      rw [hv, hF]
      simp only [LinearMap.id_coe, id_eq, ite_self, RCLike.inner_apply, conj_trivial, mul_one, Real.sqrt_one, mul_neg, neg_neg]
      rw [if_neg (by norm_num), if_neg (by norm_num)]
      have hhb : missRays.phi (-1) (1 / 1) - 0 + 1 / 2 * (1 / 1) = 1 / 20 := by
        simp only [missRays, missF]
        rw [if_neg (by norm_num), if_neg (by norm_num), if_neg (by norm_num)]
        norm_num
      rw [hhb, if_neg (by norm_num), show (1 : ℝ) / 1 = 1 by norm_num]
      obtain ⟨s, g', e, hg0, hg1⟩ := hinc
      rw [e]
      have hnew : newGrad missRays (-1) ⟨s, g', false⟩ = 1 := by
        simp only [newGrad, missRays, missG]
        rw [if_pos (by linarith)]
        norm_num
      rw [hnew, h1]
      rw [hF] at ih
      obtain ⟨d', r1, r2, r3, r4⟩ := ih (k + 1)
        { gfs := List.replicate (k + 1) 1 ++ [1], used := List.replicate (k + 1) 1, shortest := 1, minPv := 1, eta1 := -1, P := 1, ndir := some 1, exit := d.exit }
        (by rw [List.replicate_succ' (n := k + 1)]) (fun _ => rfl)
      exact ⟨d', r1, r2, r3, by rw [r4]; congr 1; omega⟩
  obtain ⟨d, r1, r2, r3, r4⟩ := main (len - 1) 0 { old with gfs := [missG 0] } (by simp [hG]) (fun h => by omega)
  exact ⟨d, r1, r2, r3, by rw [r4]; congr 1; omega⟩

/-- **C93 (violated): the transported gradient can belong to another point.** When the ten passes are used up, `gf2` is the gradient at the last but one trial point, `eta2` and `x2`
belong to the last one: for any function whose derivative along the ray stays below `-alpha P`, whatever the comparison decides. -/
theorem C93_gradient_of_other_point (phi dphi : ℝ → ℝ) (f1 alpha c P hb : ℝ) (hc : 0 < c) (hd : ∀ t, dphi t + alpha * P < 0) :
    (increasing phi dphi f1 alpha c P hb).found = false ∧ (increasing phi dphi f1 alpha c P hb).gstep ≠ (increasing phi dphi f1 alpha c P hb).step := by
  have main : ∀ n a b step g, a < b → (step = a ∨ step = b) → (n = 0 → g ≠ step) →
      (incLoop phi dphi f1 alpha c P hb n a b step g).found = false ∧
        (incLoop phi dphi f1 alpha c P hb n a b step g).gstep ≠ (incLoop phi dphi f1 alpha c P hb n a b step g).step := by
    intro n
    induction n with
    | zero => intro a b step g _ _ h; exact ⟨rfl, h rfl⟩
    | succ n ih =>
      intro a b step g hab hs _
      rw [incLoop, if_pos (hd step)]
      dsimp only
      have hne : step ≠ (a + b) / 2 := by
        rcases hs with h | h
        · rw [h]; intro h'; linarith
        · rw [h]; intro h'; linarith
      split
      · exact ih _ _ _ _ (by linarith) (Or.inl rfl) (fun _ => hne)
      · exact ih _ _ _ _ (by linarith) (Or.inr rfl) (fun _ => hne)
  exact main 10 0 c c c hc (Or.inr rfl) (fun h => by omega)

/-! ### RGS -/

theorem rgsSteps_length (Eps : ℝ) (us : List E) : ∀ l, rgsSteps Eps us = some l → l.length = us.length ∧ ∀ e ∈ l, √⟪e, e⟫ = |Eps| := by
  induction us with
  | nil => intro l h; simp [rgsSteps] at h; subst h; simp
  | cons u us ih =>
    intro l h
    rw [rgsSteps] at h
    by_cases h0 : √⟪u, u⟫ = 0
    · rw [if_pos h0] at h; cases h
    · rw [if_neg h0] at h
      obtain ⟨l', h1, rfl⟩ := Option.map_eq_some_iff.mp h
      obtain ⟨h2, h3⟩ := ih l' h1
      refine ⟨by simp [h2], ?_⟩
      intro e he
      rcases List.mem_cons.mp he with rfl | he
      · have e1 : ∀ w : E, √⟪w, w⟫ = ‖w‖ := fun w => by rw [real_inner_self_eq_norm_sq, Real.sqrt_sq (norm_nonneg w)]
        have hu : ‖u‖ ≠ 0 := by rw [← e1]; exact h0
        rw [e1, e1, norm_smul, Real.norm_eq_abs, abs_div, abs_of_nonneg (norm_nonneg u), div_mul_cancel₀ _ hu]
      · exact h3 e he

/-- **C91 (RGS).** When no random vector is zero and the subproblem is solved exactly: the points sampled are at distance `Eps`; the direction is not computed only if the shortest vector is zero (and
`ndir1 = 0` then, so it is not used); otherwise it has length one, its product with every sampled gradient is at most `-ndir1`, and the slope handed to the line search is `-ndir1`. -/
theorem C91_rgs (Eps : ℝ) (back : E → E) (hull : (E →ₗ[ℝ] E) → List E → E) (hex : Exact LinearMap.id hull) (gf1 : E) (us : List E) (hus : ∀ u ∈ us, u ≠ 0) :
    ∃ steps d, rgsSteps Eps us = some steps ∧ rgsDir Eps back hull gf1 us = some d ∧ (∀ e ∈ steps, √⟪e, e⟫ = |Eps|) ∧ d.gfs = gf1 :: steps.map back ∧ steps.length = us.length ∧
      (d.eta1 = none → d.ndir = 0) ∧
      ∀ eta, d.eta1 = some eta → 0 < d.ndir ∧ √⟪eta, eta⟫ = 1 ∧ (∀ g ∈ d.gfs, ⟪g, eta⟫ ≤ -d.ndir) ∧ ⟪d.minPv, eta⟫ = -d.ndir := by
  have hdef : ∃ steps, rgsSteps Eps us = some steps := by
    clear hex
    induction us with
    | nil => exact ⟨[], rfl⟩
    | cons u us ih =>
      obtain ⟨l, hl⟩ := ih (fun w hw => hus w (by simp [hw]))
      have hu : √⟪u, u⟫ ≠ 0 := (Real.sqrt_pos.mpr (real_inner_self_pos.mpr (hus u (by simp)))).ne'
      exact ⟨(Eps / √⟪u, u⟫) • u :: l, by rw [rgsSteps, if_neg hu, hl]; rfl⟩
  obtain ⟨steps, hsteps⟩ := hdef
  obtain ⟨hl, hn⟩ := rgsSteps_length Eps us steps hsteps
  refine ⟨steps, _, hsteps, by rw [rgsDir, hsteps]; rfl, hn, rfl, hl, ?_, ?_⟩
  · dsimp only
    intro h
    split at h
    · assumption
    · cases h
  · dsimp only
    set v := hull LinearMap.id (gf1 :: steps.map back) with hv
    intro eta h
    by_cases h0 : √⟪v, v⟫ = 0
    · rw [if_pos h0] at h; cases h
    · rw [if_neg h0] at h
      injection h with h
      have hpos : 0 < √⟪v, v⟫ := lt_of_le_of_ne (Real.sqrt_nonneg _) (Ne.symm h0)
      have hsq : √⟪v, v⟫ * √⟪v, v⟫ = ⟪v, v⟫ := Real.mul_self_sqrt real_inner_self_nonneg
      have hscale : ∀ g : E, ⟪g, eta⟫ = -(⟪g, v⟫ / √⟪v, v⟫) := fun g => by rw [← h, inner_smul_right]; ring
      refine ⟨hpos, ?_, ?_, ?_⟩
      · have e2 : ⟪v, v⟫ / √⟪v, v⟫ = √⟪v, v⟫ := by rw [div_eq_iff h0, hsq]
        rw [Real.sqrt_eq_one, hscale, real_inner_comm v eta, hscale, e2, neg_div, neg_neg, div_self h0]
      · intro g hg
        have := shortest_var id_spd (hex _ (by simp)).1 (mem_hull hg)
        rw [← hv] at this
        simp only [LinearMap.id_coe, id_eq] at this
        rw [hscale]
        have : √⟪v, v⟫ ≤ ⟪g, v⟫ / √⟪v, v⟫ := (le_div_iff₀ hpos).mpr (by rw [hsq]; exact this)
        linarith
      · have e2 : ⟪v, v⟫ / √⟪v, v⟫ = √⟪v, v⟫ := by rw [div_eq_iff h0, hsq]
        rw [hscale, e2]

/-! ### The hypotheses can be met -/

/-- In a finite dimensional space the subproblem has exact solutions, for every symmetric positive definite operator. -/
theorem exact_exists [FiniteDimensional ℝ E] (H : E →ₗ[ℝ] E) : ∃ hull, Exact H hull := by
  have key : ∀ (K : E →ₗ[ℝ] E) (W : List E), ∃ v, W ≠ [] → ShortestIn K {w | w ∈ W} v := by
    intro K W
    by_cases hW : W = []
    · exact ⟨0, fun h => absurd hW h⟩
    · have hfin : Set.Finite {w | w ∈ W} := List.finite_toSet W
      have hcont : Continuous fun u : E => ⟪u, K u⟫ := continuous_id.inner (LinearMap.continuous_of_finiteDimensional K)
      have hne : (convexHull ℝ {w | w ∈ W}).Nonempty := by
        obtain ⟨w, hw⟩ := List.exists_mem_of_ne_nil W hW
        exact ⟨w, mem_hull hw⟩
      obtain ⟨v, hv, hmin⟩ := (hfin.isCompact_convexHull ℝ).exists_isMinOn hne hcont.continuousOn
      exact ⟨v, fun _ => ⟨hv, fun u hu => hmin hu⟩⟩
  choose f hf using key
  exact ⟨f, fun W hW => ⟨hf H W hW, hf LinearMap.id W hW⟩⟩

/-- The absolute value on the line, seen from the point 1. -/
noncomputable def absRays : Rays ℝ where
  phi eta t := |1 + t * eta|
  grad eta t := if 0 ≤ 1 + t * eta then 1 else -1
  dret eta _ := eta
  invTr _ _ g := g
  beta _ _ := 1

/-- All hypotheses of `C91_direction` and `C93_finite_partial` hold for the absolute value: 100 places are enough with `Del = 1`, `LS_alpha = 1/4`. -/
example (hull : (ℝ →ₗ[ℝ] ℝ) → List ℝ → ℝ) (hex : Exact LinearMap.id hull) (old : Dir ℝ) :
    ∃ d, getSearchDir ⟨2, 1, 1 / 100, 1 / 4⟩ absRays LinearMap.id hull 1 1 100 old = some d ∧ d.exit ≠ .exhausted := by
  obtain ⟨d, hd, -⟩ := C91_direction ⟨2, 1, 1 / 100, 1 / 4⟩ absRays LinearMap.id hull 1 1 id_spd hex (by norm_num) 100 (by norm_num) old
  refine ⟨d, hd, fun hx => ?_⟩
  have hR : Locked absRays := fun eta t => ⟨LinearIsometryEquiv.refl ℝ ℝ, fun _ => rfl, by simp [absRays], by simp [absRays]⟩
  have := C93_finite_partial ⟨2, 1, 1 / 100, 1 / 4⟩ absRays hR LinearMap.id hull id_spd hex (by norm_num) (by norm_num) 1 1 1 1 one_pos zero_le_one (fun v => by simp) (by simp)
    (fun eta r => by
      simp only [newGrad, absRays, LinearMap.id_coe, id_eq]
      split <;> simp)
    (fun v hb h1 h2 h3 => by
      have hnp : 0 < √⟪-(LinearMap.id v : ℝ), -(LinearMap.id v : ℝ)⟫ := lt_of_le_of_ne (Real.sqrt_nonneg _) (Ne.symm h3)
      rw [C93_convex_found _ _ _ _ _ _ _ (div_pos (by norm_num) hnp) ?_ h1 h2]
      simp only [Rays.dphi, absRays, RCLike.inner_apply, conj_trivial]
      split
      · rename_i hc
        rw [abs_of_nonneg hc]
        apply le_of_eq; ring
      · rename_i hc
        rw [abs_of_neg (not_le.mp hc)]
        have := not_le.mp hc
        nlinarith) 100 old d hd hx
  norm_num at this

/-! ## C92: the operators -/

/-- **C92.** The corrected pair always satisfies the upper curvature condition; a pair that satisfies it already is not changed. -/
theorem C92_corrected_pair (lambdaUpper : ℝ) (s y : E) (hy : y ≠ 0) :
    (1 / lambdaUpper) * ⟪y, y⟫ ≤ ⟪fixS lambdaUpper s y, y⟫ ∧ ((1 / lambdaUpper) * ⟪y, y⟫ ≤ ⟪s, y⟫ → fixS lambdaUpper s y = s) := by
  have hyy : 0 < ⟪y, y⟫ := real_inner_self_pos.mpr hy
  unfold fixS
  rw [if_neg hyy.ne']
  dsimp only
  by_cases h : 1 / lambdaUpper - ⟪s, y⟫ / ⟪y, y⟫ > 0
  · rw [if_pos h]
    refine ⟨?_, fun hc => ?_⟩
    · rw [inner_add_left, inner_smul_left]
      simp only [conj_trivial]
      rw [sub_mul, div_mul_cancel₀ _ hyy.ne']
      linarith
    · have := (le_div_iff₀ hyy).mpr hc
      linarith
  · rw [if_neg h]
    have h' := (le_div_iff₀ hyy).mp (sub_nonpos.mp (not_lt.mp h))
    exact ⟨by rw [zero_smul, zero_add]; exact h', fun _ => by rw [zero_smul, zero_add]⟩

/-- One update keeps the operator symmetric positive definite. -/
theorem rbfgsSub_spd (lambdaLower lambdaUpper : ℝ) (hl : 0 ≤ lambdaLower) (p : Call E) {H : E →ₗ[ℝ] E} (h : IsSPD H) : IsSPD (rbfgsSub lambdaLower lambdaUpper p H) := by
  unfold rbfgsSub
  dsimp only
  set s := fixS lambdaUpper p.s p.y
  by_cases hc : ⟪s, s⟫ ≠ 0 ∧ lambdaLower < ⟪s, p.y⟫ / ⟪s, s⟫
  · rw [if_pos hc]
    have hss : 0 < ⟪s, s⟫ := lt_of_le_of_ne real_inner_self_nonneg (Ne.symm hc.1)
    have hsy : 0 < ⟪s, p.y⟫ := by
      have := (lt_div_iff₀ hss).mp hc.2
      exact lt_of_le_of_lt (mul_nonneg hl hss.le) this
    refine C23_bfgs_update_spd (tranH_spd ?_) hsy
    split
    · have hy : p.y ≠ 0 := by intro h0; rw [h0, inner_zero_right] at hsy; exact lt_irrefl _ hsy
      exact scaledId_spd (div_pos hsy (real_inner_self_pos.mpr hy))
    · exact h
  · rw [if_neg hc]
    exact id_spd

/-- **C92 (RBFGSSub).** For every sequence of steps, gradients and isometric transports the operator stays symmetric positive definite; after an accepted pair it maps `y` to the corrected `s`,
after a rejected one it is the identity. -/
theorem C92_rbfgs (lambdaLower lambdaUpper : ℝ) (hl : 0 ≤ lambdaLower) (ps : List (Call E)) (H : E →ₗ[ℝ] E) (h : IsSPD H) : IsSPD (rbfgsSubRun lambdaLower lambdaUpper ps H) := by
  induction ps generalizing H with
  | nil => exact h
  | cons p ps ih => exact ih _ (rbfgsSub_spd lambdaLower lambdaUpper hl p h)

theorem C92_rbfgs_secant (lambdaLower lambdaUpper : ℝ) (hl : 0 ≤ lambdaLower) (p : Call E) (H : E →ₗ[ℝ] E) (h : IsSPD H) :
    (lambdaLower * ⟪fixS lambdaUpper p.s p.y, fixS lambdaUpper p.s p.y⟫ < ⟪fixS lambdaUpper p.s p.y, p.y⟫ → rbfgsSub lambdaLower lambdaUpper p H p.y = fixS lambdaUpper p.s p.y) ∧
    (¬ lambdaLower * ⟪fixS lambdaUpper p.s p.y, fixS lambdaUpper p.s p.y⟫ < ⟪fixS lambdaUpper p.s p.y, p.y⟫ → rbfgsSub lambdaLower lambdaUpper p H = LinearMap.id) := by
  unfold rbfgsSub
  dsimp only
  set s := fixS lambdaUpper p.s p.y
  refine ⟨fun hc => ?_, fun hc => ?_⟩
  · have hs : s ≠ 0 := by intro h0; rw [h0] at hc; simp at hc
    have hss : 0 < ⟪s, s⟫ := real_inner_self_pos.mpr hs
    have hsy : 0 < ⟪s, p.y⟫ := lt_of_le_of_lt (mul_nonneg hl hss.le) hc
    rw [if_pos ⟨hss.ne', (lt_div_iff₀ hss).mpr hc⟩]
    refine C23_bfgs_secant (tranH_sym ?_) hsy.ne'
    split
    · have hy : p.y ≠ 0 := by intro h0; rw [h0, inner_zero_right] at hsy; exact lt_irrefl _ hsy
      exact (scaledId_spd (div_pos hsy (real_inner_self_pos.mpr hy))).1
    · exact h.1
  · rw [if_neg]
    rintro ⟨h1, h2⟩
    exact hc ((lt_div_iff₀ (lt_of_le_of_ne real_inner_self_nonneg (Ne.symm h1))).mp h2)

/-! ### Limited memory -/

/-- One BFGS update as a linear operator. -/
theorem bfgsFun_linear {F : E → E} {H : E →ₗ[ℝ] E} (hF : ∀ v, F v = H v) (h : IsSPD H) (q : Pair E) (hq : 0 < q.rho) : ∃ H' : E →ₗ[ℝ] E, IsSPD H' ∧ ∀ v, bfgsFun F q v = H' v := by
  refine ⟨{ toFun := bfgsFun F q, map_add' := ?_, map_smul' := ?_ }, ⟨?_, ?_⟩, fun _ => rfl⟩
  · intro u v
    simp only [bfgsFun, hF, map_sub, map_smul, inner_add_right, inner_sub_right, inner_smul_right, map_add]
    module
  · intro c v
    simp only [bfgsFun, hF, map_sub, map_smul, inner_sub_right, inner_smul_right, RingHom.id_apply]
    module
  · intro u v
    have hs : ∀ a b, ⟪H a, b⟫ = ⟪a, H b⟫ := h.1
    change ⟪bfgsFun F q u, v⟫ = ⟪u, bfgsFun F q v⟫
    simp only [bfgsFun, hF, map_sub, map_smul, inner_add_left, inner_sub_left, inner_smul_left, inner_add_right, inner_sub_right, inner_smul_right, conj_trivial, hs]
    have e0 : ⟪u, q.s⟫ = ⟪q.s, u⟫ := real_inner_comm _ _
    have e1 : ⟪q.y, H u⟫ = ⟪u, H q.y⟫ := by rw [real_inner_comm, hs]
    have e3 : ⟪q.y, H v⟫ = ⟪v, H q.y⟫ := by rw [real_inner_comm, hs]
    simp only [e0, e1, e3]
    ring
  · intro v hv
    have hpos : IsPos F := fun w hw => by rw [hF]; exact h.2 w hw
    exact bfgsFun_pos hpos hq v hv

theorem foldl_linear : ∀ (q : List (Pair E)) (F : E → E) (H : E →ₗ[ℝ] E), (∀ v, F v = H v) → IsSPD H → (∀ r ∈ q, 0 < r.rho) →
    ∃ H' : E →ₗ[ℝ] E, IsSPD H' ∧ ∀ v, q.foldl bfgsFun F v = H' v := by
  intro q
  induction q with
  | nil => intro F H hF h _; exact ⟨H, h, hF⟩
  | cons r q ih =>
    intro F H hF h hq
    obtain ⟨H', h1, h2⟩ := bfgsFun_linear hF h r (hq r (by simp))
    exact ih _ H' h2 h1 (fun r' hr' => hq r' (by simp [hr']))

/-- **C92 (LRBFGSSub).** For every memory length and every sequence of steps of a fresh solver with `lambdaLower > 0`: no division by zero and no access outside the arrays happens, and the
operator computed by the two-loop recursion is linear, symmetric and positive definite (so C91 applies to it). -/
theorem C92_lrbfgs (lambdaLower lambdaUpper : ℝ) (hl : 0 < lambdaLower) (cap : Nat) (ps : List (Call E)) (junk : Nat → ℝ) :
    ∃ st, lrbfgsSubRun lambdaLower lambdaUpper ps ⟨Buf.fresh cap, 1⟩ = some st ∧
      ∃ H : E →ₗ[ℝ] E, IsSPD H ∧ ∀ v, st.buf.hv id st.gamma junk v = some (H v) := by
  have main : ∀ (ps : List (Call E)) (st : LSub E) (q : List (Pair E)), BufInv false cap st.buf q → (∀ r ∈ q, 0 < r.rho) → 0 < st.gamma →
      ∃ st' q', lrbfgsSubRun lambdaLower lambdaUpper ps st = some st' ∧ BufInv false cap st'.buf q' ∧ (∀ r ∈ q', 0 < r.rho) ∧ 0 < st'.gamma := by
    intro ps
    induction ps with
    | nil => intro st q h1 h2 h3; exact ⟨st, q, rfl, h1, h2, h3⟩
    | cons p ps ih =>
      intro st q h1 h2 h3
      rw [lrbfgsSubRun, lrbfgsSub]
      dsimp only
      set s := fixS lambdaUpper p.s p.y
      by_cases hc : ⟪s, s⟫ ≠ 0 ∧ lambdaLower ≤ ⟪s, p.y⟫ / ⟪s, s⟫
      · rw [if_pos hc]
        have hss : 0 < ⟪s, s⟫ := lt_of_le_of_ne real_inner_self_nonneg (Ne.symm hc.1)
        have hsy : 0 < ⟪s, p.y⟫ := lt_of_lt_of_le (mul_pos hl hss) ((le_div_iff₀ hss).mp hc.2)
        have hy : p.y ≠ 0 := by intro h0; rw [h0, inner_zero_right] at hsy; exact lt_irrefl _ hsy
        have hyy := real_inner_self_pos.mpr hy
        rw [if_neg (by rintro (h | h); exacts [hyy.ne' h, hsy.ne' h])]
        obtain ⟨b', q', e1, e2, e3⟩ := update_inv (p.T : E → E) (some { s := s, y := p.y, rho := 1 / ⟪s, p.y⟫ }) h1 h2 (by
          intro r hr; injection hr with hr; rw [← hr]; exact one_div_pos.mpr hsy)
        have e1' : st.buf.store p.T { s := s, y := p.y, rho := 1 / ⟪s, p.y⟫ } = some b' := e1
        rw [e1']
        exact ih ⟨b', _⟩ q' e2 e3 (div_pos hsy hyy)
      · rw [if_neg hc]
        refine ih _ [] ?_ (by simp) h3
        exact ⟨h1.cap_eq, rfl, Nat.zero_le _, Or.inl rfl, Or.inl rfl, fun _ => rfl, fun i hi => by simp at hi⟩
  obtain ⟨st, q, h1, h2, h3, h4⟩ := main ps ⟨Buf.fresh cap, 1⟩ [] (fresh_inv false cap) (by simp) one_pos
  obtain ⟨H, h5, h6⟩ := foldl_linear q (fun u => st.gamma • id u) (st.gamma • LinearMap.id) (fun _ => rfl) (scaledId_spd h4) h3
  exact ⟨st, h1, H, h5, fun v => by rw [C25_two_loop_is_bfgs false cap st.buf q h2 id st.gamma junk v, h6]⟩

/-- A pair with negative curvature on the line is corrected, and the operator is updated with it. -/
example : fixS (2 : ℝ) (1 : ℝ) (-1 : ℝ) = -1 / 2 ∧
    rbfgsSub (1 / 100) 2 ⟨LinearIsometryEquiv.refl ℝ ℝ, 1, 1, 0, 1, 1, 1, 2⟩ LinearMap.id (-1 : ℝ) = -1 / 2 := by
  have h1 : fixS (2 : ℝ) (1 : ℝ) (-1 : ℝ) = -1 / 2 := by
    simp only [fixS, RCLike.inner_apply, conj_trivial]
    norm_num
  refine ⟨h1, ?_⟩
  have hs : (⟨LinearIsometryEquiv.refl ℝ ℝ, 1, 1, 0, 1, 1, 1, 2⟩ : Call ℝ).s = 1 := rfl
  have hy : (⟨LinearIsometryEquiv.refl ℝ ℝ, 1, 1, 0, 1, 1, 1, 2⟩ : Call ℝ).y = -1 := by simp [Call.y]
  have := (C92_rbfgs_secant (1 / 100) 2 (by norm_num) ⟨LinearIsometryEquiv.refl ℝ ℝ, 1, 1, 0, 1, 1, 1, 2⟩ (LinearMap.id : ℝ →ₗ[ℝ] ℝ) id_spd).1
  rw [hs, hy, h1] at this
  exact this (by simp only [RCLike.inner_apply, conj_trivial]; norm_num)

/-- The hypothesis of `C93_gradient_of_other_point` for a function that goes down with slope -1. -/
example : ∀ t : ℝ, (fun _ => -1 : ℝ → ℝ) t + 1 / 2 * 1 < 0 := fun t => by norm_num

end Verif.SubDir
