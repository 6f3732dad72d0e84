import Verif.Manifold.Dispatch
import Verif.Props.Sphere
import Mathlib.Analysis.Complex.Basic
import Mathlib.Analysis.InnerProductSpace.Basic

/-!
# C103, C104: configurations of the manifolds

Which configurations give transports that fit together, what sequences of setter calls lead to, and the scaling of the locking condition.
-/

namespace Verif.Dispatch

open Verif.Sphere
open scoped InnerProductSpace

/-! ## Specification -/

/-- The maps of a step have the properties the library documents. In coordinates the tangent spaces are the whole space. -/
structure Geo.Valid {E : Type} [NormedAddCommGroup E] [InnerProductSpace ℝ E] (G : Geo E) (k : Cls) (c : Cfg) : Prop where
  /-- orthogonal projections -/
  projX_mem : ∀ v, G.projX v ∈ G.TX
  projX_fix : ∀ v ∈ G.TX, G.projX v = v
  projX_sym : ∀ v w, ⟪G.projX v, w⟫_ℝ = ⟪v, G.projX w⟫_ℝ
  projY_mem : ∀ v, G.projY v ∈ G.TY
  projY_fix : ∀ v ∈ G.TY, G.projY v = v
  projY_sym : ∀ v w, ⟪G.projY v, w⟫_ℝ = ⟪v, G.projY w⟫_ℝ
  /-- isometries between the tangent spaces; the Cayley transport is one of the whole space -/
  cay_iso : ∀ v, ⟪G.cay v, G.cay v⟫_ℝ = ⟪v, v⟫_ℝ
  cay_mem : ∀ v ∈ G.TX, G.cay v ∈ G.TY
  cay_left : ∀ v, G.cayInv (G.cay v) = v
  cay_right : ∀ v, G.cay (G.cayInv v) = v
  par_iso : ∀ v ∈ G.TX, ⟪G.par v, G.par v⟫_ℝ = ⟪v, v⟫_ℝ
  par_mem : ∀ v ∈ G.TX, G.par v ∈ G.TY
  par_left : ∀ v ∈ G.TX, G.parInv (G.par v) = v
  coords_iso : ∀ v ∈ G.TX, ⟪G.coords v, G.coords v⟫_ℝ = ⟪v, v⟫_ℝ
  coords_mem : ∀ v ∈ G.TX, G.coords v ∈ G.TY
  /-- the direction and the transported direction -/
  η_mem : G.η ∈ G.TX
  z_mem : G.z ∈ G.TY
  η_ne : G.η ≠ 0
  z_norm : ⟪G.z, G.z⟫_ℝ = ⟪G.η, G.η⟫_ℝ
  /-- the reflectors of the locking condition exist if the transport does not map the direction to zero -/
  refl : ∀ T, G.fwd (way k c) = some T → T G.η ≠ 0 → (lcVectors T G.η G.z).isSome
  full : c.intr = true → G.TX = ⊤ ∧ G.TY = ⊤

/-- The inverse transport undoes the transport, for every step. -/
def Undoes (k : Cls) (c : Cfg) : Prop :=
  ∀ (E : Type) [NormedAddCommGroup E] [InnerProductSpace ℝ E] (G : Geo E), G.Valid k c →
    ∀ ξ ∈ G.TX, ξ ≠ 0 → ∃ v, transport G k c ξ = some v ∧ inverse G k c v = some ξ

/-- The transported operator is: back to `x`, operator, transport to `y`. -/
def Conjugates (k : Cls) (c : Cfg) : Prop :=
  ∀ (E : Type) [NormedAddCommGroup E] [InnerProductSpace ℝ E] (G : Geo E), G.Valid k c →
    ∀ H : E →ₗ[ℝ] E, (∀ v ∈ G.TX, H v ∈ G.TX) → ∃ K, opTransport G k c H = some K ∧
      ∀ v ∈ G.TY, ∃ u, inverse G k c v = some u ∧ (H u ≠ 0 → transport G k c (H u) = some (K v)) ∧ (H u = 0 → K v = 0)

/-- The configurations in which the inverse transport undoes the transport. -/
def goodInv (k : Cls) (c : Cfg) : Bool :=
  c.hhr.isSome &&
  match k with
  | .euclidean => true
  | .sphereTx => !c.intr
  | .cstiefel | .grassmann | .fixedRankE | .q2f | .cq2f => c.intr
  | .stiefel => c.intr != decide (c.vt = .cayley)
  | .sphere => c.intr != decide (c.vt = .cayley ∨ c.vt = .parTran)
  | .spd => c.intr && decide (c.vt ≠ .parTran) && decide (c.hhr = some false)
  | .symFR | .csymFR => c.intr && decide (c.vt ≠ .proj)

/-- The configurations in which operators are transported correctly. -/
def goodOp (k : Cls) (c : Cfg) : Bool :=
  goodInv k c &&
  match k with
  | .sphereTx => false
  | .stiefel | .sphere => decide (c.vt ≠ .cayley)
  | .symFR | .csymFR => decide (c.hhr = some false)
  | _ => true

/-! ## Two steps in the plane -/

/-- A line through the origin, its tangent line turned by the angle with cosine `3/5`, extrinsic representation. -/
noncomputable def u0 : ℂ := ⟨3 / 5, 4 / 5⟩

/-- Orthogonal projection onto the line of `w`, `|w| = 1`. -/
noncomputable def lineProj (w : ℂ) : ℂ →ₗ[ℝ] ℂ := (innerₛₗ ℝ w).smulRight w

noncomputable def mulBy (w : ℂ) : ℂ →ₗ[ℝ] ℂ := LinearMap.mulLeft ℝ w

noncomputable def Gext : Geo ℂ where
  TX := ℝ ∙ (1 : ℂ)
  TY := ℝ ∙ u0
  projX := lineProj 1
  projY := lineProj u0
  cay := mulBy u0
  cayInv := mulBy (starRingEnd ℂ u0)
  par := mulBy u0
  parInv := mulBy (starRingEnd ℂ u0)
  coords := mulBy u0
  across := mulBy u0
  η := 1
  z := u0

/-- Coordinates: the tangent spaces are the plane, the retraction turns the direction by a right angle. -/
noncomputable def Gint : Geo ℂ where
  TX := ⊤
  TY := ⊤
  projX := LinearMap.id
  projY := LinearMap.id
  cay := LinearMap.id
  cayInv := LinearMap.id
  par := LinearMap.id
  parInv := LinearMap.id
  coords := LinearMap.id
  across := -LinearMap.id
  η := 1
  z := Complex.I

theorem lineProj_apply (w v : ℂ) : lineProj w v = ((v.re * w.re + v.im * w.im : ℝ) : ℂ) * w := by
  simp only [lineProj, LinearMap.smulRight_apply, innerₛₗ_apply_apply, Complex.real_smul]
  congr 2
  rw [Complex.inner]
  simp

theorem mulBy_apply (w v : ℂ) : mulBy w v = w * v := rfl

theorem inner_eq (v w : ℂ) : ⟪v, w⟫_ℝ = v.re * w.re + v.im * w.im := by
  rw [Complex.inner]
  simp
  ring

theorem lcVectors_isSome {E : Type} [NormedAddCommGroup E] [InnerProductSpace ℝ E] {T : E → E} {η z : E} (h1 : T η ≠ 0) (h0 : η ≠ 0)
    (h2 : z ≠ -(√(⟪η, η⟫_ℝ / ⟪T η, T η⟫_ℝ) • T η)) : (lcVectors T η z).isSome := by
  have a : ⟪T η, T η⟫_ℝ ≠ 0 := inner_self_ne_zero.mpr h1
  have b : ⟪η, η⟫_ℝ / ⟪T η, T η⟫_ℝ ≠ 0 := div_ne_zero (inner_self_ne_zero.mpr h0) a
  have b' : 0 < ⟪η, η⟫_ℝ / ⟪T η, T η⟫_ℝ := lt_of_le_of_ne (div_nonneg real_inner_self_nonneg real_inner_self_nonneg) b.symm
  have c : √(⟪η, η⟫_ℝ / ⟪T η, T η⟫_ℝ) • T η ≠ 0 := smul_ne_zero (Real.sqrt_pos.mpr b').ne' h1
  unfold lcVectors
  rw [fdiv_of_ne a, Option.bind_some]
  have d1 : ⟪(2 : ℝ) • √(⟪η, η⟫_ℝ / ⟪T η, T η⟫_ℝ) • T η, (2 : ℝ) • √(⟪η, η⟫_ℝ / ⟪T η, T η⟫_ℝ) • T η⟫_ℝ ≠ 0 :=
    inner_self_ne_zero.mpr (smul_ne_zero two_ne_zero c)
  have d2 : ⟪(-1 : ℝ) • z + (-1 : ℝ) • √(⟪η, η⟫_ℝ / ⟪T η, T η⟫_ℝ) • T η, (-1 : ℝ) • z + (-1 : ℝ) • √(⟪η, η⟫_ℝ / ⟪T η, T η⟫_ℝ) • T η⟫_ℝ ≠ 0 := by
    refine inner_self_ne_zero.mpr fun e => h2 ?_
    have : (-1 : ℝ) • z = -((-1 : ℝ) • √(⟪η, η⟫_ℝ / ⟪T η, T η⟫_ℝ) • T η) := eq_neg_of_add_eq_zero_left e
    simp only [neg_smul, one_smul, neg_neg] at this
    rw [← this, neg_neg]
  simp only [fdiv_of_ne d1, fdiv_of_ne d2, Option.bind_some, Option.map_some, Option.isSome_some]

theorem Gext_valid {k : Cls} {c : Cfg} (hi : c.intr = false) : Gext.Valid k c where
  projX_mem v := by
    rw [Gext, lineProj_apply]
    exact Submodule.mem_span_singleton.mpr ⟨_, by rw [Complex.real_smul]⟩
  projX_fix v hv := by
    obtain ⟨a, rfl⟩ := Submodule.mem_span_singleton.mp hv
    rw [Gext, lineProj_apply]
    simp
  projX_sym v w := by simp only [Gext, lineProj_apply, inner_eq]; simp
  projY_mem v := by
    rw [Gext, lineProj_apply]
    exact Submodule.mem_span_singleton.mpr ⟨_, by rw [Complex.real_smul]⟩
  projY_fix v hv := by
    obtain ⟨a, rfl⟩ := Submodule.mem_span_singleton.mp hv
    rw [Gext, lineProj_apply, Complex.real_smul]
    congr 2
    simp [u0]
    ring
  projY_sym v w := by simp only [Gext, lineProj_apply, inner_eq, u0]; simp; ring
  cay_iso v := by simp only [Gext, mulBy_apply, inner_eq, u0]; simp; ring
  cay_mem v hv := by
    obtain ⟨a, rfl⟩ := Submodule.mem_span_singleton.mp hv
    exact Submodule.mem_span_singleton.mpr ⟨a, by rw [Gext, mulBy_apply]; simp [mul_comm]⟩
  cay_left v := by
    simp only [Gext, mulBy_apply]
    apply Complex.ext <;> simp [u0] <;> ring
  cay_right v := by
    simp only [Gext, mulBy_apply]
    apply Complex.ext <;> simp [u0] <;> ring
  par_iso v _ := by simp only [Gext, mulBy_apply, inner_eq, u0]; simp; ring
  par_mem v hv := by
    obtain ⟨a, rfl⟩ := Submodule.mem_span_singleton.mp hv
    exact Submodule.mem_span_singleton.mpr ⟨a, by rw [Gext, mulBy_apply]; simp [mul_comm]⟩
  par_left v _ := by
    simp only [Gext, mulBy_apply]
    apply Complex.ext <;> simp [u0] <;> ring
  coords_iso v _ := by simp only [Gext, mulBy_apply, inner_eq, u0]; simp; ring
  coords_mem v hv := by
    obtain ⟨a, rfl⟩ := Submodule.mem_span_singleton.mp hv
    exact Submodule.mem_span_singleton.mpr ⟨a, by rw [Gext, mulBy_apply]; simp [mul_comm]⟩
  η_mem := Submodule.mem_span_singleton_self _
  z_mem := Submodule.mem_span_singleton_self _
  η_ne := one_ne_zero
  z_norm := by simp only [Gext, inner_eq, u0]; simp; norm_num
  refl T hT hne := by
    have hz : ∀ t : ℝ, 0 ≤ t → ∀ w : ℂ, (w = 1 ∨ w = ((3 / 5 : ℝ) : ℂ) * u0 ∨ w = u0) → u0 ≠ -(t • w) := by
      intro t ht w hw e
      have e' := congrArg Complex.re e
      rcases hw with rfl | rfl | rfl <;> simp [u0] at e' <;> nlinarith
    refine lcVectors_isSome hne one_ne_zero (hz _ (Real.sqrt_nonneg _) _ ?_)
    cases hw : way k c <;> simp only [hw, Geo.fwd, Option.some.injEq, reduceCtorEq] at hT <;> subst hT
    · left; rfl
    · right; left; simp only [Gext, lineProj_apply]; simp [u0]
    · right; right; simp [Gext, mulBy_apply]
    · right; right; simp [Gext, mulBy_apply]
    · right; right; simp [Gext, mulBy_apply]
    · right; right; simp [Gext, mulBy_apply]
    · exact absurd rfl hne
  full h := by rw [hi] at h; cases h

theorem Gint_valid (k : Cls) (c : Cfg) : Gint.Valid k c where
  projX_mem v := Submodule.mem_top
  projX_fix v _ := rfl
  projX_sym v w := rfl
  projY_mem v := Submodule.mem_top
  projY_fix v _ := rfl
  projY_sym v w := rfl
  cay_iso v := rfl
  cay_mem v _ := Submodule.mem_top
  cay_left v := rfl
  cay_right v := rfl
  par_iso v _ := rfl
  par_mem v _ := Submodule.mem_top
  par_left v _ := rfl
  coords_iso v _ := rfl
  coords_mem v _ := Submodule.mem_top
  η_mem := Submodule.mem_top
  z_mem := Submodule.mem_top
  η_ne := one_ne_zero
  z_norm := by simp only [Gint, inner_eq]; simp
  refl T hT hne := by
    refine lcVectors_isSome hne one_ne_zero ?_
    have hz : ∀ t : ℝ, ∀ w : ℂ, w.im = 0 → Complex.I ≠ -(t • w) := by
      intro t w hw e
      have e' := congrArg Complex.im e
      simp [hw] at e'
    refine hz _ _ ?_
    cases hw : way k c <;> simp only [hw, Geo.fwd, Option.some.injEq, reduceCtorEq] at hT <;> subst hT <;> simp [Gint]
  full _ := ⟨rfl, rfl⟩

/-! ## The branches -/

theorem goodInv_cases {k : Cls} {c : Cfg} (h : goodInv k c = true) :
    ∃ b, c.hhr = some b ∧ (b = true → fwdIgnores k c = backIgnores k c) ∧
      ((way k c = .copy ∧ back k c = .copy) ∨ (way k c = .cayley ∧ back k c = .cayley) ∨
        (way k c = .parallel ∧ back k c = .parallel ∧ (b = true → fwdIgnores k c = true))) := by
  obtain ⟨r, vt, m, i, hh⟩ := c
  cases hh with
  | none => simp [goodInv] at h
  | some b =>
    refine ⟨b, rfl, ?_⟩
    revert h
    cases k <;> cases vt <;> cases i <;> cases b <;> simp [goodInv, way, back, fwdIgnores, backIgnores]

theorem badInv_cases {k : Cls} {c : Cfg} (h : goodInv k c = false) :
    c.hhr = none ∨ way k c = .bad ∨
      (c.intr = false ∧ back k c = .projX ∧ (way k c = .projY ∨ way k c = .coords ∨ way k c = .zero) ∧ opWay k c = .copy) ∨
      (c.intr = true ∧ back k c = .copy ∧ opWay k c = .copy ∧ (way k c = .across ∧ fwdIgnores k c = backIgnores k c ∧ (k = .symFR ∨ k = .csymFR) ∧ opIgnores k c = false ∨
        way k c = .zero ∧ fwdIgnores k c = true ∧ opIgnores k c = false)) ∨
      (c.intr = true ∧ back k c = .copy ∧ way k c = .copy ∧ opWay k c = .copy ∧ c.hhr = some true ∧ fwdIgnores k c = true ∧ backIgnores k c = false ∧ opIgnores k c = false ∧ k = .spd) := by
  obtain ⟨r, vt, m, i, hh⟩ := c
  cases hh with
  | none => left; rfl
  | some b =>
    revert h
    cases k <;> cases vt <;> cases i <;> cases b <;> simp [goodInv, way, back, fwdIgnores, backIgnores, opWay, opIgnores]

section
variable {E : Type} [NormedAddCommGroup E] [InnerProductSpace ℝ E]

/-- With reflections, whatever the transport: norms are kept, and a subspace containing the transported direction, `z` and the transported vector contains the result. -/
theorem lc_shape {T : E → E} {η z ξ v : E} (h : lcTransport T η z ξ = some v) :
    ⟪v, v⟫_ℝ = ⟪ξ, ξ⟫_ℝ ∧ ∀ S : Submodule ℝ E, T η ∈ S → z ∈ S → T ξ ∈ S → v ∈ S := by
  refine ⟨C41_norm_preserved h, fun S h1 h2 h3 => ?_⟩
  obtain ⟨ν1, ν2, τ1, τ2, hq, h0, rfl⟩ := lcTransport_some h
  obtain ⟨_, hν1, hν2, _, _, _, _⟩ := lcVectors_some hq
  have m1 : ν1 ∈ S := by rw [hν1]; exact S.smul_mem _ (S.smul_mem _ h1)
  have m2 : ν2 ∈ S := by rw [hν2]; exact S.add_mem (S.smul_mem _ h2) (S.smul_mem _ (S.smul_mem _ h1))
  unfold reflect
  exact S.add_mem (S.add_mem (S.smul_mem _ h3) (S.smul_mem _ m1)) (S.smul_mem _ m2)

theorem lcInv_shape {T B : E → E} {η z v w : E} (h : lcInvTransport T B η z v = some w) :
    ∃ v', w = B v' ∧ ⟪v', v'⟫_ℝ = ⟪v, v⟫_ℝ ∧ ∀ S : Submodule ℝ E, T η ∈ S → z ∈ S → v ∈ S → v' ∈ S := by
  unfold lcInvTransport at h
  match hq : lcVectors T η z, h with
  | some (ν1, ν2, τ1, τ2), h =>
    rw [Option.map_some, Option.some.injEq] at h
    obtain ⟨_, hν1, hν2, n1, n2, e1, e2⟩ := lcVectors_some hq
    refine ⟨_, h.symm, by rw [reflect_inner n1 e1, reflect_inner n2 e2], fun S h1 h2 h3 => ?_⟩
    have m1 : ν1 ∈ S := by rw [hν1]; exact S.smul_mem _ (S.smul_mem _ h1)
    have m2 : ν2 ∈ S := by rw [hν2]; exact S.add_mem (S.smul_mem _ h2) (S.smul_mem _ (S.smul_mem _ h1))
    unfold reflect
    exact S.add_mem (S.add_mem h3 (S.smul_mem _ m2)) (S.smul_mem _ m1)

theorem lc_back {T B : E → E} {η z ξ v : E} (h : lcTransport T η z ξ = some v) :
    lcInvTransport T B η z v = some (B (√(⟪ξ, ξ⟫_ℝ / ⟪T ξ, T ξ⟫_ℝ) • T ξ)) := by
  obtain ⟨ν1, ν2, τ1, τ2, hq, h0, rfl⟩ := lcTransport_some h
  obtain ⟨_, _, _, n1, n2, e1, e2⟩ := lcVectors_some hq
  rw [lcInvTransport, hq, Option.map_some, reflect_reflect n2 e2, reflect_reflect n1 e1]

theorem lc_exists {T : E → E} {η z ξ : E} (h : (lcVectors T η z).isSome) (h1 : T ξ ≠ 0) : ∃ v, lcTransport T η z ξ = some v := by
  obtain ⟨q, hq⟩ := Option.isSome_iff_exists.mp h
  unfold lcTransport
  rw [hq, Option.bind_some, fdiv_of_ne (inner_self_ne_zero.mpr h1), Option.map_some]
  exact ⟨_, rfl⟩

/-- What the operator with four reflections does to a vector. -/
theorem lcOp_apply {T : E → E} {η z : E} {H K : E →ₗ[ℝ] E} (h : lcTranHInvTran T η z H = some K) :
    ∃ ν1 ν2 τ1 τ2, lcVectors T η z = some (ν1, ν2, τ1, τ2) ∧
      ∀ v, K v = reflect ν2 τ2 (reflect ν1 τ1 (H (reflect ν1 τ1 (reflect ν2 τ2 v)))) := by
  unfold lcTranHInvTran at h
  match hq : lcVectors T η z, h with
  | some (ν1, ν2, τ1, τ2), h =>
    rw [Option.map_some, Option.some.injEq] at h
    refine ⟨ν1, ν2, τ1, τ2, rfl, fun v => ?_⟩
    subst h
    have hr : ∀ (ν : E) (τ : ℝ) (K : E →ₗ[ℝ] E) (u : E), rightReflect ν τ K u = K (reflect ν τ u) := by
      intro ν τ K u
      simp only [rightReflect, reflect, LinearMap.add_apply, LinearMap.smul_apply, LinearMap.smulRight_apply, innerₛₗ_apply_apply, map_add, map_smul, smul_smul]
      rw [real_inner_comm]
      congr 2
      ring
    have hl : ∀ (ν : E) (τ : ℝ) (K : E →ₗ[ℝ] E) (u : E), leftReflect ν τ K u = reflect ν τ (K u) := by
      intro ν τ K u
      simp only [leftReflect, reflect, LinearMap.add_apply, LinearMap.smul_apply, LinearMap.smulRight_apply, LinearMap.comp_apply, innerₛₗ_apply_apply, smul_smul]
      rw [real_inner_comm]
      congr 2
      ring
    rw [hl, hl, hr, hr]

end

/-! ## C103: transports that fit together -/

theorem bool_and_not (b f : Bool) : (b && !f) = true ↔ b = true ∧ f = false := by cases b <;> cases f <;> simp

theorem undoes_of_good {k : Cls} {c : Cfg} (h : goodInv k c = true) : Undoes k c := by
  intro E _ _ G hG ξ hξ hne
  obtain ⟨b, hb, hfl, hcase⟩ := goodInv_cases h
  -- the pair of maps
  have key : ∃ T B : E →ₗ[ℝ] E, G.fwd (way k c) = some T ∧ G.bwd (back k c) = some B ∧ B (T ξ) = ξ ∧ ⟪T ξ, T ξ⟫_ℝ = ⟪ξ, ξ⟫_ℝ ∧ T G.η ≠ 0 := by
    rcases hcase with ⟨h1, h2⟩ | ⟨h1, h2⟩ | ⟨h1, h2, -⟩
    · exact ⟨_, _, by rw [h1]; rfl, by rw [h2]; rfl, rfl, rfl, hG.η_ne⟩
    · refine ⟨_, _, by rw [h1]; rfl, by rw [h2]; rfl, hG.cay_left ξ, hG.cay_iso ξ, fun e => ?_⟩
      have := hG.cay_iso G.η
      rw [e, inner_zero_left] at this
      exact hG.η_ne (inner_self_eq_zero.mp this.symm)
    · refine ⟨_, _, by rw [h1]; rfl, by rw [h2]; rfl, hG.par_left ξ hξ, hG.par_iso ξ hξ, fun e => ?_⟩
      have := hG.par_iso G.η hG.η_mem
      rw [e, inner_zero_left] at this
      exact hG.η_ne (inner_self_eq_zero.mp this.symm)
  obtain ⟨T, B, hT, hB, hBT, hiso, hη⟩ := key
  have hTξ : T ξ ≠ 0 := fun e => by
    rw [e, inner_zero_left] at hiso
    exact hne (inner_self_eq_zero.mp hiso.symm)
  unfold transport inverse
  simp only [hb, hT, hB, Option.bind_some]
  by_cases hf : (b && !fwdIgnores k c) = true
  · have hf' := (bool_and_not _ _).mp hf
    have hbk : (b && !backIgnores k c) = true := (bool_and_not _ _).mpr ⟨hf'.1, by rw [← hfl hf'.1]; exact hf'.2⟩
    simp only [hf, hbk, if_true]
    obtain ⟨v, hv⟩ := lc_exists (ξ := ξ) (hG.refl T hT hη) hTξ
    exact ⟨v, hv, C41_inverse hiso hBT hv⟩
  · have hbk : ¬ (b && !backIgnores k c) = true := fun e => hf (by
      have e' := (bool_and_not _ _).mp e
      exact (bool_and_not _ _).mpr ⟨e'.1, by rw [hfl e'.1]; exact e'.2⟩)
    simp only [hf, hbk]
    exact ⟨_, rfl, by simp [hBT]⟩

/-- In `Gext` every transport ends in the tangent line at `y` and does not lengthen. -/
theorem Gext_transport {k : Cls} {c : Cfg} (hw : way k c = .projY ∨ way k c = .coords ∨ way k c = .zero ∨ way k c = .cayley ∨ way k c = .parallel) {ξ v : ℂ}
    (hξ : ξ ∈ Gext.TX) (h : transport Gext k c ξ = some v) : v ∈ Gext.TY ∧ ⟪v, v⟫_ℝ ≤ ⟪ξ, ξ⟫_ℝ := by
  have hmem : ∀ T, Gext.fwd (way k c) = some T → (∀ w ∈ Gext.TX, T w ∈ Gext.TY) ∧ ∀ w, ⟪T w, T w⟫_ℝ ≤ ⟪w, w⟫_ℝ := by
    have hV : Gext.Valid .euclidean ⟨.own, .para, .own, false, none⟩ := Gext_valid rfl
    have hmul : ∀ w : ℂ, ⟪mulBy u0 w, mulBy u0 w⟫_ℝ ≤ ⟪w, w⟫_ℝ := fun w => (hV.cay_iso w).le
    intro T hT
    rcases hw with e | e | e | e | e <;> simp only [e, Geo.fwd, Option.some.injEq] at hT <;> subst hT
    · refine ⟨fun w _ => hV.projY_mem w, fun w => ?_⟩
      simp only [Gext, lineProj_apply, inner_eq, u0]
      simp
      nlinarith [sq_nonneg (w.re * (4 / 5) - w.im * (3 / 5))]
    · exact ⟨hV.coords_mem, hmul⟩
    · exact ⟨fun w _ => Submodule.zero_mem _, fun w => by simp⟩
    · exact ⟨hV.cay_mem, hmul⟩
    · exact ⟨hV.par_mem, hmul⟩
  unfold transport at h
  cases hb : c.hhr with
  | none => simp [hb] at h
  | some b =>
    cases hT : Gext.fwd (way k c) with
    | none => simp [hb, hT] at h
    | some T =>
      obtain ⟨m1, m2⟩ := hmem T hT
      simp only [hb, hT, Option.bind_some] at h
      by_cases hf : (b && !fwdIgnores k c) = true
      · rw [if_pos hf] at h
        obtain ⟨a1, a2⟩ := lc_shape h
        exact ⟨a2 _ (m1 _ (Submodule.mem_span_singleton_self _)) (Submodule.mem_span_singleton_self _) (m1 _ hξ), a1.le⟩
      · rw [if_neg hf, Option.some.injEq] at h
        subst h
        exact ⟨m1 _ hξ, m2 _⟩

/-- The reflectors of `Gint` for the copying transport. -/
theorem Gint_vectors : lcVectors (LinearMap.id : ℂ →ₗ[ℝ] ℂ) Gint.η Gint.z = some (⟨2, 0⟩, ⟨-1, -1⟩, 1 / 2, 1) := by
  unfold lcVectors
  have h1 : ⟪(LinearMap.id : ℂ →ₗ[ℝ] ℂ) Gint.η, (LinearMap.id : ℂ →ₗ[ℝ] ℂ) Gint.η⟫_ℝ = 1 := by simp only [inner_eq, Gint]; simp
  have h2 : ⟪Gint.η, Gint.η⟫_ℝ = 1 := by simp only [inner_eq, Gint]; simp
  rw [h1, h2, fdiv_of_ne one_ne_zero, Option.bind_some]
  have e1 : (2 : ℝ) • √(1 / 1) • (LinearMap.id : ℂ →ₗ[ℝ] ℂ) Gint.η = ⟨2, 0⟩ := by
    apply Complex.ext <;> simp [Gint]
  have e2 : (-1 : ℝ) • Gint.z + (-1 : ℝ) • √(1 / 1) • (LinearMap.id : ℂ →ₗ[ℝ] ℂ) Gint.η = ⟨-1, -1⟩ := by
    apply Complex.ext <;> simp [Gint]
  simp only [e1, e2, inner_eq]
  norm_num [fdiv]

theorem Gint_back (B : ℂ → ℂ) : lcInvTransport (LinearMap.id : ℂ →ₗ[ℝ] ℂ) B Gint.η Gint.z 1 = some (B (-Complex.I)) := by
  rw [lcInvTransport, Gint_vectors, Option.map_some]
  congr 2
  simp only [reflect, inner_eq]
  apply Complex.ext <;> simp

theorem good_of_undoes {k : Cls} {c : Cfg} (h : Undoes k c) : goodInv k c = true := by
  by_contra hg
  rw [Bool.not_eq_true] at hg
  rcases badInv_cases hg with e | e | ⟨hi, hb, hw, -⟩ | ⟨hi, hb, -, hw⟩ | ⟨hi, hb, hw, -, hh, hf, hk, -⟩
  · obtain ⟨v, hv, -⟩ := h ℂ Gint (Gint_valid k c) 1 Submodule.mem_top one_ne_zero
    simp [transport, e] at hv
  · obtain ⟨v, hv, -⟩ := h ℂ Gint (Gint_valid k c) 1 Submodule.mem_top one_ne_zero
    cases hh : c.hhr <;> simp [transport, e, hh, Geo.fwd] at hv
  · have h1 : (1 : ℂ) ∈ Gext.TX := Submodule.mem_span_singleton_self _
    obtain ⟨v, hv, hv'⟩ := h ℂ Gext (Gext_valid hi) 1 h1 one_ne_zero
    obtain ⟨m, n⟩ := Gext_transport (by tauto) h1 hv
    -- the projection at `x` of a vector of the line that is not longer than one
    have hp : ∀ w ∈ Gext.TY, ⟪w, w⟫_ℝ ≤ ⟪(1 : ℂ), 1⟫_ℝ → Gext.projX w ≠ 1 := by
      intro w hwm hwn e
      obtain ⟨a, rfl⟩ := Submodule.mem_span_singleton.mp hwm
      have e' := congrArg Complex.re e
      simp only [Gext, lineProj_apply] at e'
      simp only [inner_eq] at hwn
      simp [u0] at e' hwn
      nlinarith
    unfold inverse at hv'
    cases hh : c.hhr with
    | none => simp [hh] at hv'
    | some b =>
      simp only [hh, hb, Geo.bwd, Option.bind_some] at hv'
      by_cases hf : (b && !backIgnores k c) = true
      · rw [if_pos hf] at hv'
        cases hT : Gext.fwd (way k c) with
        | none => simp [hT] at hv'
        | some T =>
          simp only [hT, Option.bind_some] at hv'
          obtain ⟨v', e1, e2, e3⟩ := lcInv_shape hv'
          have hTη : T Gext.η ∈ Gext.TY := by
            have hV : Gext.Valid .euclidean ⟨.own, .para, .own, false, none⟩ := Gext_valid rfl
            rcases hw with e | e | e <;> simp only [e, Geo.fwd, Option.some.injEq] at hT <;> subst hT
            · exact hV.projY_mem _
            · exact hV.coords_mem _ hV.η_mem
            · exact Submodule.zero_mem _
          exact hp v' (e3 _ hTη (Submodule.mem_span_singleton_self _) m) (by rw [e2]; exact n) e1.symm
      · rw [if_neg hf, Option.some.injEq] at hv'
        exact hp v m n hv'
  · obtain ⟨v, hv, hv'⟩ := h ℂ Gint (Gint_valid k c) 1 Submodule.mem_top one_ne_zero
    unfold transport at hv
    unfold inverse at hv'
    cases hh : c.hhr with
    | none => simp [hh] at hv'
    | some b =>
      rcases hw with ⟨hw, hfl, -⟩ | ⟨hw, hfl, -⟩
      · simp only [hh, hb, hw, Geo.fwd, Geo.bwd, Option.bind_some, hfl] at hv hv'
        by_cases hf : (b && !backIgnores k c) = true
        · rw [if_pos hf] at hv hv'
          rw [lc_back hv, Option.some.injEq] at hv'
          have e' := congrArg Complex.re hv'
          simp only [Gint, inner_eq] at e'
          simp at e'
          norm_num at e'
        · rw [if_neg hf, Option.some.injEq] at hv hv'
          subst hv
          have e' := congrArg Complex.re hv'
          simp [Gint] at e'
          norm_num at e'
      · simp only [hh, hb, hw, Geo.fwd, Geo.bwd, Option.bind_some, hfl] at hv hv'
        simp only [Bool.not_true, Bool.and_false, Bool.false_eq_true, if_false, Option.some.injEq, LinearMap.zero_apply] at hv
        subst hv
        by_cases hf : (b && !backIgnores k c) = true
        · rw [if_pos hf] at hv'
          obtain ⟨v', e1, e2, -⟩ := lcInv_shape hv'
          rw [inner_zero_left] at e2
          have : v' = 0 := inner_self_eq_zero.mp e2
          rw [this] at e1
          simp at e1
        · rw [if_neg hf, Option.some.injEq] at hv'
          simp at hv'
  · obtain ⟨v, hv, hv'⟩ := h ℂ Gint (Gint_valid k c) 1 Submodule.mem_top one_ne_zero
    unfold transport at hv
    unfold inverse at hv'
    simp only [hh, hb, hw, hf, hk, Geo.fwd, Geo.bwd, Option.bind_some] at hv hv'
    simp at hv
    subst hv
    simp only [Bool.not_false, Bool.and_true, if_true] at hv'
    rw [Gint_back, Option.some.injEq] at hv'
    have e' := congrArg Complex.re hv'
    simp at e'

/-- **C103, inverse transport**: exactly in the configurations `goodInv` the inverse transport undoes the transport, for every step of every geometry with the documented properties. -/
theorem C103_inverse_iff (k : Cls) (c : Cfg) : Undoes k c ↔ goodInv k c = true := ⟨good_of_undoes, undoes_of_good⟩

theorem goodOp_cases {k : Cls} {c : Cfg} (h : goodOp k c = true) :
    goodInv k c = true ∧ ((way k c = .copy ∧ back k c = .copy ∧ opWay k c = .copy ∧
        ((∃ b, c.hhr = some b ∧ (b = true → fwdIgnores k c = false ∧ backIgnores k c = false ∧ opIgnores k c = false ∧ k ≠ .symFR ∧ k ≠ .csymFR)))) ∨
      (way k c = .parallel ∧ back k c = .parallel ∧ opWay k c = .parallel ∧ fwdIgnores k c = true ∧ backIgnores k c = true ∧ opIgnores k c = true)) := by
  obtain ⟨r, vt, m, i, hh⟩ := c
  cases hh with
  | none => simp [goodOp, goodInv] at h
  | some b =>
    revert h
    cases k <;> cases vt <;> cases i <;> cases b <;> simp [goodOp, goodInv, way, back, fwdIgnores, backIgnores, opWay, opIgnores]

theorem badOp_cases {k : Cls} {c : Cfg} (h : goodOp k c = false) :
    goodInv k c = false ∨ (c.intr = false ∧ opWay k c = .copy ∧ (way k c = .cayley ∨ way k c = .parallel)) ∨
      (c.hhr = some true ∧ opWay k c = .copy ∧ (k = .symFR ∨ k = .csymFR)) := by
  obtain ⟨r, vt, m, i, hh⟩ := c
  cases hh with
  | none => left; rfl
  | some b =>
    revert h
    cases k <;> cases vt <;> cases i <;> cases b <;> simp [goodOp, goodInv, way, opWay]

theorem conjugates_of_good {k : Cls} {c : Cfg} (h : goodOp k c = true) : Conjugates k c := by
  intro E _ _ G hG H hH
  obtain ⟨hg, hc⟩ := goodOp_cases h
  obtain ⟨b, hb, -⟩ := goodInv_cases hg
  rcases hc with ⟨h1, h2, h3, b', hb', hfl⟩ | ⟨h1, h2, h3, f1, f2, f3⟩
  · obtain rfl : b' = b := by rw [hb] at hb'; exact (Option.some.inj hb').symm
    cases hbb : b' with
    | false =>
      refine ⟨H, ?_, fun v _ => ⟨v, ?_, fun _ => ?_, fun e => e⟩⟩
      · simp [opTransport, hb, hbb, h3, Geo.op]
      · simp [inverse, hb, hbb, h2, Geo.bwd]
      · simp [transport, hb, hbb, h1, Geo.fwd]
    | true =>
      obtain ⟨f1, f2, f3, n1, n2⟩ := hfl hbb
      have hs : (lcVectors (LinearMap.id : E →ₗ[ℝ] E) G.η G.z).isSome := hG.refl LinearMap.id (by rw [h1]; rfl) hG.η_ne
      obtain ⟨q, hq⟩ := Option.isSome_iff_exists.mp hs
      obtain ⟨K, hK⟩ : ∃ K, lcTranHInvTran (LinearMap.id : E →ₗ[ℝ] E) G.η G.z H = some K := by
        unfold lcTranHInvTran
        rw [hq, Option.map_some]
        exact ⟨_, rfl⟩
      refine ⟨K, ?_, fun v _ => ?_⟩
      · simpa [opTransport, hb, hbb, h3, f3, n1, n2, h1, Geo.op, Geo.fwd] using hK
      · obtain ⟨u, a1, a2, a3⟩ := C41_operator_transport LinearMap.id LinearMap.id H (fun _ => rfl) (G := K) hK v
        refine ⟨u, ?_, fun hne => ?_, a3⟩
        · simpa [inverse, hb, hbb, h2, h1, f2, Geo.bwd, Geo.fwd] using a1
        · simpa [transport, hb, hbb, h1, f1, Geo.fwd] using a2 hne
  · refine ⟨G.par ∘ₗ H ∘ₗ G.parInv, ?_, fun v _ => ⟨G.parInv v, ?_, fun _ => ?_, fun e => ?_⟩⟩
    · simp [opTransport, hb, h3, f3, Geo.op]
    · simp [inverse, hb, h2, f2, Geo.bwd]
    · simp [transport, hb, h1, f1, Geo.fwd]
    · simp [e]

/-- Reflections along one line: twice is nothing. -/
theorem Gext_reflect {ν : ℂ} (h : ν ∈ Gext.TY) {τ : ℝ} (hn : ⟪ν, ν⟫_ℝ ≠ 0) (hτ : τ = 2 / ⟪ν, ν⟫_ℝ) (w : ℂ) :
    reflect ν τ w = w - (2 * (w.re * (3 / 5) + w.im * (4 / 5))) • u0 := by
  obtain ⟨a, rfl⟩ := Submodule.mem_span_singleton.mp h
  have hs : ⟪a • u0, a • u0⟫_ℝ = a ^ 2 := by simp only [inner_eq, u0, Complex.smul_re, Complex.smul_im, smul_eq_mul]; ring
  have hw : ⟪w, a • u0⟫_ℝ = a * (w.re * (3 / 5) + w.im * (4 / 5)) := by
    simp only [inner_eq, u0, Complex.smul_re, Complex.smul_im, smul_eq_mul]; ring
  rw [hs] at hn hτ
  have ha : a ≠ 0 := by rintro rfl; simp at hn
  rw [reflect, hw, hτ, smul_smul, sub_eq_add_neg, ← neg_smul]
  congr 2
  field_simp

/-- The operator `v ↦ Re v` of the line at `x`, moved by copying: the result at `u0` is not tangent at `y`. -/
theorem Gext_op {k : Cls} {c : Cfg} (ho : opWay k c = .copy)
    (hw : way k c = .projY ∨ way k c = .coords ∨ way k c = .zero ∨ way k c = .cayley ∨ way k c = .parallel) {K : ℂ →ₗ[ℝ] ℂ}
    (h : opTransport Gext k c (lineProj 1) = some K) : K u0 = ⟨3 / 5, 0⟩ := by
  have hH : lineProj 1 u0 = ⟨3 / 5, 0⟩ := by rw [lineProj_apply]; apply Complex.ext <;> simp [u0]
  unfold opTransport at h
  cases hb : c.hhr with
  | none => simp [hb] at h
  | some b =>
    simp only [hb, ho, Geo.op, Option.bind_some] at h
    by_cases hf : (b && !opIgnores k c) = true
    · rw [if_pos hf] at h
      by_cases hk : k = .symFR ∨ k = .csymFR
      · rw [if_pos hk] at h; cases h
      · rw [if_neg hk] at h
        cases hT : Gext.fwd (way k c) with
        | none => simp [hT] at h
        | some T =>
          simp only [hT, Option.bind_some] at h
          obtain ⟨ν1, ν2, τ1, τ2, hq, hK⟩ := lcOp_apply h
          obtain ⟨_, hν1, hν2, n1, n2, e1, e2⟩ := lcVectors_some hq
          have hTη : T Gext.η ∈ Gext.TY := by
            have hV : Gext.Valid .euclidean ⟨.own, .para, .own, false, none⟩ := Gext_valid rfl
            rcases hw with e | e | e | e | e <;> simp only [e, Geo.fwd, Option.some.injEq] at hT <;> subst hT
            · exact hV.projY_mem _
            · exact hV.coords_mem _ hV.η_mem
            · exact Submodule.zero_mem _
            · exact hV.cay_mem _ hV.η_mem
            · exact hV.par_mem _ hV.η_mem
          have hz : Gext.z ∈ Gext.TY := Submodule.mem_span_singleton_self _
          have m1 : ν1 ∈ Gext.TY := by rw [hν1]; exact Submodule.smul_mem _ _ (Submodule.smul_mem _ _ hTη)
          have m2 : ν2 ∈ Gext.TY := by
            rw [hν2]; exact Submodule.add_mem _ (Submodule.smul_mem _ _ hz) (Submodule.smul_mem _ _ (Submodule.smul_mem _ _ hTη))
          have two : ∀ w : ℂ, (w - (2 * (w.re * (3 / 5) + w.im * (4 / 5))) • u0) -
              (2 * ((w - (2 * (w.re * (3 / 5) + w.im * (4 / 5))) • u0).re * (3 / 5) + (w - (2 * (w.re * (3 / 5) + w.im * (4 / 5))) • u0).im * (4 / 5))) • u0 = w := by
            intro w
            apply Complex.ext <;> simp [u0] <;> ring
          rw [hK, Gext_reflect m1 n1 e1, Gext_reflect m2 n2 e2, Gext_reflect m1 n1 e1, Gext_reflect m2 n2 e2, two, two, hH]
    · rw [if_neg hf, Option.some.injEq] at h
      rw [← h, hH]

theorem not_conj_ext {k : Cls} {c : Cfg} (hi : c.intr = false) (ho : opWay k c = .copy)
    (hw : way k c = .projY ∨ way k c = .coords ∨ way k c = .zero ∨ way k c = .cayley ∨ way k c = .parallel) : ¬ Conjugates k c := by
  intro h
  have hV : Gext.Valid k c := Gext_valid hi
  obtain ⟨K, hK, hv⟩ := h ℂ Gext hV (lineProj 1) (fun v _ => hV.projX_mem v)
  have hKu := Gext_op ho hw hK
  obtain ⟨u, hu, a1, a2⟩ := hv u0 (Submodule.mem_span_singleton_self _)
  by_cases h0 : lineProj 1 u = 0
  · have := congrArg Complex.re (hKu.symm.trans (a2 h0))
    norm_num at this
  · obtain ⟨m, -⟩ := Gext_transport hw (hV.projX_mem u) (a1 h0)
    rw [hKu] at m
    obtain ⟨a, ha⟩ := Submodule.mem_span_singleton.mp m
    have e1 := congrArg Complex.re ha
    have e2 := congrArg Complex.im ha
    simp [u0] at e1 e2
    rw [e2] at e1
    norm_num at e1

theorem good_of_conjugates {k : Cls} {c : Cfg} (h : Conjugates k c) : goodOp k c = true := by
  by_contra hg
  rw [Bool.not_eq_true] at hg
  have hI : ∀ v ∈ Gint.TX, (LinearMap.id : ℂ →ₗ[ℝ] ℂ) v ∈ Gint.TX := fun v hv => hv
  rcases badOp_cases hg with hinv | ⟨hi, ho, hw⟩ | ⟨hh, ho, hk⟩
  · rcases badInv_cases hinv with e | e | ⟨hi, hb, hw, ho⟩ | ⟨hi, hb, ho, hw⟩ | ⟨hi, hb, hw, ho, hh, hf, hk, hop, rfl⟩
    · obtain ⟨K, hK, -⟩ := h ℂ Gint (Gint_valid k c) LinearMap.id hI
      simp [opTransport, e] at hK
    · obtain ⟨K, hK, hv⟩ := h ℂ Gint (Gint_valid k c) LinearMap.id hI
      obtain ⟨u, hu, -⟩ := hv 1 Submodule.mem_top
      have hbad : back k c = .bad := by
        revert e
        obtain ⟨r, vt, m, i, hh⟩ := c
        cases k <;> cases vt <;> cases i <;> simp [way, back]
      cases hh : c.hhr <;> simp [inverse, hbad, hh, Geo.bwd] at hu
    · exact not_conj_ext hi ho (by tauto) h
    · obtain ⟨K, hK, hv⟩ := h ℂ Gint (Gint_valid k c) LinearMap.id hI
      obtain ⟨u, hu, a1, a2⟩ := hv 1 Submodule.mem_top
      cases hh : c.hhr with
      | none => simp [opTransport, hh] at hK
      | some b =>
        rcases hw with ⟨hw, hfl, hk, hop⟩ | ⟨hw, hfl, hop⟩
        · cases b with
          | true => simp [opTransport, hh, ho, hop, hk, Geo.op] at hK
          | false =>
            simp [opTransport, hh, ho, Geo.op] at hK
            simp [inverse, hh, hb, Geo.bwd] at hu
            subst hK hu
            have := a1 one_ne_zero
            simp [transport, hh, hw, Geo.fwd, Gint] at this
            have e' := congrArg Complex.re this
            norm_num at e'
        · cases b with
          | true =>
            have hnone : lcVectors (0 : ℂ →ₗ[ℝ] ℂ) Gint.η Gint.z = none := by simp [lcVectors, fdiv]
            by_cases hks : k = .symFR ∨ k = .csymFR
            · simp [opTransport, hh, ho, hop, hks, Geo.op] at hK
            · simp [opTransport, hh, ho, hop, hks, Geo.op, hw, Geo.fwd, lcTranHInvTran, hnone] at hK
          | false =>
            simp [opTransport, hh, ho, Geo.op] at hK
            simp [inverse, hh, hb, Geo.bwd] at hu
            subst hK hu
            have := a1 one_ne_zero
            simp [transport, hh, hw, Geo.fwd] at this
    · obtain ⟨K, hK, hv⟩ := h ℂ Gint (Gint_valid _ c) LinearMap.id hI
      obtain ⟨u, hu, a1, a2⟩ := hv 1 Submodule.mem_top
      simp [inverse, hh, hb, hw, hk, Geo.bwd, Geo.fwd] at hu
      have hu' : lcInvTransport (LinearMap.id : ℂ →ₗ[ℝ] ℂ) (LinearMap.id : ℂ →ₗ[ℝ] ℂ) Gint.η Gint.z 1 = some u := hu
      rw [Gint_back, Option.some.injEq] at hu'
      simp [opTransport, hh, ho, hop, hw, Geo.op, Geo.fwd] at hK
      obtain ⟨ν1, ν2, τ1, τ2, hq, hKv⟩ := lcOp_apply hK
      obtain ⟨_, _, _, n1, n2, e1, e2⟩ := lcVectors_some hq
      have hK1 : K 1 = 1 := by
        rw [hKv, LinearMap.id_apply, reflect_reflect n1 e1, reflect_reflect n2 e2]
      subst hu'
      have := a1 (by simp)
      simp [transport, hh, hw, hf, Geo.fwd, hK1] at this
      have e' := congrArg Complex.re this
      simp at e'
  · exact not_conj_ext hi ho (by tauto) h
  · obtain ⟨K, hK, -⟩ := h ℂ Gint (Gint_valid k c) LinearMap.id hI
    have : opIgnores k c = false := by rcases hk with rfl | rfl <;> rfl
    simp [opTransport, hh, ho, this, hk, Geo.op] at hK

/-- **C103, operators**: exactly in the configurations `goodOp` an operator is transported as "back, apply, transport". -/
theorem C103_operator_iff (k : Cls) (c : Cfg) : Conjugates k c ↔ goodOp k c = true := ⟨good_of_conjugates, conjugates_of_good⟩

/-! ## Sequences of calls -/

/-- The parameter sets a class offers. -/
def offers : Cls → Nat → Bool
  | .stiefel, i | .sphere, i => decide (1 ≤ i ∧ i ≤ 5)
  | .cstiefel, i | .spd, i | .csymFR, i => decide (1 ≤ i ∧ i ≤ 4)
  | .symFR, i => decide (1 ≤ i ∧ i ≤ 6)
  | _, _ => false

/-- The sets written for the inverse transport: what the comments of the headers promise holds, provided nothing else is changed. `(inverse, operators)`. -/
def table : Cls → Nat → Bool × Bool
  | .stiefel, 1 | .stiefel, 3 | .cstiefel, 1 | .cstiefel, 3 => (true, true)
  | .stiefel, 5 | .sphere, 5 => (true, false)
  | .sphere, 1 | .sphere, 2 | .sphere, 3 | .sphere, 4 => (true, true)
  | _, _ => (false, false)

def gaveHHR : Act → Option Bool
  | .hhr b => some b
  | .params (some v) _ => some (decide (v ≠ 0))
  | _ => none

/-- The value the user last gave to `HasHHR`. -/
def lastHHR : List Act → Option Bool
  | [] => none
  | a :: l => (lastHHR l).or (gaveHHR a)

def gaveIntr : Act → Option Bool
  | .intr b => some b
  | _ => none

/-- The value the user last gave to `IsIntrApproach`. -/
def lastIntr : List Act → Option Bool
  | [] => none
  | a :: l => (lastIntr l).or (gaveIntr a)

theorem after_append (k : Cls) (l m : List Act) : after k (l ++ m) = m.foldl (act k) (after k l) := by
  simp [after, List.foldl_append]

theorem le_cases {i n : Nat} (h : 1 ≤ i ∧ i ≤ n) (hn : n ≤ 6) : i = 1 ∨ i = 2 ∨ i = 3 ∨ i = 4 ∨ i = 5 ∨ i = 6 := by omega

/-- **C103, fresh start**: for `Stiefel`, `CStiefel` and `Sphere`, choosing a parameter set gives the same configuration whatever was called before. -/
theorem C103_set_forgets {k : Cls} (hk : k = .stiefel ∨ k = .cstiefel ∨ k = .sphere) {i : Nat} (hi : offers k i = true) (l : List Act) :
    after k (l ++ [.choose i]) = after k [.choose i] := by
  rw [after_append]
  simp only [List.foldl_cons, List.foldl_nil, act, after]
  rcases hk with rfl | rfl | rfl <;> simp only [offers, decide_eq_true_eq] at hi <;>
    rcases le_cases hi (by omega) with rfl | rfl | rfl | rfl | rfl | rfl <;> first | rfl | omega

/-- **C103, table**: after any calls followed by the choice of a set, the transports of `Stiefel`, `CStiefel` and `Sphere` fit together as `table` says. -/
theorem C103_set_table {k : Cls} (hk : k = .stiefel ∨ k = .cstiefel ∨ k = .sphere) {i : Nat} (hi : offers k i = true) (l : List Act) :
    (Undoes k (after k (l ++ [.choose i])) ↔ (table k i).1 = true) ∧
    (Conjugates k (after k (l ++ [.choose i])) ↔ (table k i).2 = true) := by
  rw [C103_set_forgets hk hi, C103_inverse_iff, C103_operator_iff]
  rcases hk with rfl | rfl | rfl <;> simp only [offers, decide_eq_true_eq] at hi <;>
    rcases le_cases hi (by omega) with rfl | rfl | rfl | rfl | rfl | rfl <;>
    first | omega | simp [table, after, act, choose, stiefelSet, goodInv, goodOp, ctor]

/-- The classes whose parameter sets do not change `HasHHR`. -/
def keepsHHR (k : Cls) : Bool :=
  match k with
  | .stiefel | .cstiefel | .sphere => false
  | _ => true

theorem choose_hhr {k : Cls} (hk : keepsHHR k = true) (i : Nat) (c : Cfg) : (choose k i c).hhr = c.hhr := by
  cases k <;> simp [keepsHHR] at hk <;> unfold choose <;> split <;> simp_all

theorem chooseParam_hhr {k : Cls} (hk : keepsHHR k = true) (i : Int) (c : Cfg) : (chooseParam k i c).hhr = c.hhr := by
  cases k <;> simp [keepsHHR] at hk <;> simp only [chooseParam] <;> (try split) <;> first | rfl | exact choose_hhr rfl _ _

theorem fold_hhr {k : Cls} (hk : keepsHHR k = true) : ∀ (l : List Act) (c : Cfg),
    (l.foldl (act k) c).hhr = (match lastHHR l with | some b => some b | none => c.hhr)
  | [], c => rfl
  | a :: l, c => by
    rw [List.foldl_cons, fold_hhr hk l, lastHHR]
    cases h : lastHHR l with
    | some b => rfl
    | none =>
      cases a with
      | choose i => exact choose_hhr hk i c
      | hhr b => rfl
      | intr b => rfl
      | params v s =>
        cases v <;> cases s <;> simp [act, gaveHHR, chooseParam_hhr hk]

/-- **C103, the flag is kept**: in all other classes `HasHHR` is the value the user gave last, and before that the value of the constructor - which is no value at all for `FixedRankE`. -/
theorem C103_flag {k : Cls} (hk : keepsHHR k = true) (l : List Act) :
    (after k l).hhr = (match lastHHR l with | some b => some b | none => if k = .fixedRankE then none else some false) := by
  rw [after, fold_hhr hk]
  cases lastHHR l with
  | some b => rfl
  | none => cases k <;> simp [keepsHHR] at hk <;> rfl

/-- **C103, lost request**: `SetParams` with both keys: for `Stiefel`, `CStiefel` and `Sphere` the value of "HasHHR" is overwritten by the parameter set, whatever the value. -/
theorem C103_params_lose_flag {k : Cls} (hk : k = .stiefel ∨ k = .cstiefel ∨ k = .sphere) {i : Int} (hi : 0 ≤ i) (ho : offers k i.toNat = true) (l : List Act) (v : Int) :
    after k (l ++ [.params (some v) (some i)]) = after k [.choose i.toNat] ∧ (after k (l ++ [.params (some v) (some i)])).hhr = some false := by
  obtain ⟨n, rfl⟩ := Int.eq_ofNat_of_zero_le hi
  have h : after k (l ++ [.params (some v) (some (n : Int))]) = after k ((l ++ [.hhr (decide (v ≠ 0))]) ++ [.choose n]) := by
    rw [after_append, after_append, after_append]
    simp only [List.foldl_cons, List.foldl_nil, act]
    have h1 : (1 : Int) ≤ n := by
      rcases hk with rfl | rfl | rfl <;> simp only [offers, Int.toNat_natCast, decide_eq_true_eq] at ho <;> omega
    rcases hk with rfl | rfl | rfl <;> simp [chooseParam, h1]
  rw [h, C103_set_forgets hk (by simpa using ho)]
  refine ⟨rfl, ?_⟩
  rcases hk with rfl | rfl | rfl <;> simp only [offers, Int.toNat_natCast, decide_eq_true_eq] at ho <;>
    rcases le_cases ho (by omega) with rfl | rfl | rfl | rfl | rfl | rfl <;> rfl

/-- **C103, SPD matrices**: after any calls followed by the choice of a set, the inverse undoes the transport iff the first or second set was chosen and no reflections were requested; likewise for operators. -/
theorem C103_spd (l : List Act) {i : Nat} (hi : offers .spd i = true) :
    (Undoes .spd (after .spd (l ++ [.choose i])) ↔ i ≤ 2 ∧ lastHHR l ≠ some true) ∧
    (Conjugates .spd (after .spd (l ++ [.choose i])) ↔ i ≤ 2 ∧ lastHHR l ≠ some true) := by
  rw [C103_inverse_iff, C103_operator_iff, after_append]
  have hh := C103_flag (k := .spd) rfl l
  simp only [List.foldl_cons, List.foldl_nil, act]
  simp only [offers, decide_eq_true_eq] at hi
  rcases le_cases hi (by omega) with rfl | rfl | rfl | rfl | rfl | rfl <;>
    first
    | omega
    | (cases hl : lastHHR l with
       | none => simp [goodInv, goodOp, choose, hh, hl]
       | some b => cases b <;> simp [goodInv, goodOp, choose, hh, hl])

/-- **C103, SPD matrices by parameters**: "ParamSet" has no effect on `SPDManifold`. -/
theorem C103_spd_params (c : Cfg) (h : Option Int) (i : Int) : act .spd c (.params h (some i)) = act .spd c (.params h none) := rfl

theorem choose_intr {k : Cls} (hk : k = .symFR ∨ k = .csymFR) (i : Nat) (c : Cfg) : (choose k i c).intr = c.intr := by
  rcases hk with rfl | rfl <;> unfold choose <;> split <;> simp_all

theorem fold_intr {k : Cls} (hk : k = .symFR ∨ k = .csymFR) : ∀ (l : List Act) (c : Cfg),
    (l.foldl (act k) c).intr = (lastIntr l).getD c.intr
  | [], c => rfl
  | a :: l, c => by
    rw [List.foldl_cons, fold_intr hk l, lastIntr]
    cases h : lastIntr l with
    | some b => rfl
    | none =>
      cases a with
      | choose i => exact choose_intr hk i c
      | hhr b => rfl
      | intr b => rfl
      | params v s =>
        have e (i : Int) (c : Cfg) : (chooseParam k i c).intr = c.intr := by
          rcases hk with rfl | rfl <;> simp only [chooseParam] <;> split <;> exact choose_intr (by simp) _ _
        cases v <;> cases s <;> simp [act, gaveIntr, e]

/-- **C103, fixed-rank quotients**: after any calls followed by the choice of a set, the inverse undoes the transport iff the set selects parallelisation (`1, 2, 3`, complex `1, 2`) and coordinates were
not switched off; operators in addition need that no reflections were requested. -/
theorem C103_symFR {k : Cls} (hk : k = .symFR ∨ k = .csymFR) (l : List Act) {i : Nat} (hi : offers k i = true) :
    (Undoes k (after k (l ++ [.choose i])) ↔ i ≤ (if k = .symFR then 3 else 2) ∧ lastIntr l ≠ some false) ∧
    (Conjugates k (after k (l ++ [.choose i])) ↔ i ≤ (if k = .symFR then 3 else 2) ∧ lastIntr l ≠ some false ∧ lastHHR l ≠ some true) := by
  rw [C103_inverse_iff, C103_operator_iff, after_append]
  have hh := C103_flag (k := k) (by rcases hk with rfl | rfl <;> rfl) l
  have hi' : (after k l).intr = (lastIntr l).getD true := by
    rw [after, fold_intr hk]
    rcases hk with rfl | rfl <;> rfl
  simp only [List.foldl_cons, List.foldl_nil, act]
  rcases hk with rfl | rfl <;> simp only [offers, decide_eq_true_eq] at hi <;>
  rcases le_cases hi (by omega) with rfl | rfl | rfl | rfl | rfl | rfl <;>
    first
    | omega
    | (cases hl : lastHHR l <;> cases hm : lastIntr l <;>
        simp [goodInv, goodOp, choose, hh, hl, hi', hm])

/-- **C103, new objects**: the transports of a newly constructed object fit together, except for `FixedRankE`, where the first call reads an uninitialised flag, and for the operators of `SphereTx`. -/
theorem C103_new (k : Cls) :
    (Undoes k (after k []) ↔ k ≠ .fixedRankE) ∧ (Conjugates k (after k []) ↔ k ≠ .fixedRankE ∧ k ≠ .sphereTx) := by
  rw [C103_inverse_iff, C103_operator_iff]
  cases k <;> simp [after, ctor, goodInv, goodOp]

/-- **C103, undefined flag**: without a call that sets the flag every transport of `FixedRankE` reads an uninitialised member. -/
theorem C103_fixedRankE_undefined {E : Type} [NormedAddCommGroup E] [InnerProductSpace ℝ E] (G : Geo E) (l : List Act) (hl : lastHHR l = none) (ξ : E) :
    transport G .fixedRankE (after .fixedRankE l) ξ = none ∧ inverse G .fixedRankE (after .fixedRankE l) ξ = none := by
  have := C103_flag (k := .fixedRankE) rfl l
  rw [hl] at this
  simp [transport, inverse, this]

theorem transport_bad {E : Type} [NormedAddCommGroup E] [InnerProductSpace ℝ E] {G : Geo E} {k : Cls} {c : Cfg} {ξ : E} (h : way k c = .bad) : transport G k c ξ = none := by
  unfold transport
  rw [h]
  cases c.hhr <;> rfl

/-- **C103, coordinates switched on**: calling `SetIsIntrApproach(true)` last makes the transports of `SphereTx`, and of `Stiefel` and `Sphere` after a set with Cayley or parallel transport, read beyond the stored
vector. -/
theorem C103_intr_breaks {E : Type} [NormedAddCommGroup E] [InnerProductSpace ℝ E] (G : Geo E) (l : List Act) {k : Cls} {i : Nat}
    (h : (k = .stiefel ∧ i = 5) ∨ (k = .sphere ∧ 2 ≤ i ∧ i ≤ 5) ∨ k = .sphereTx) (ξ : E) :
    transport G k (after k (l ++ [.choose i, .intr true])) ξ = none := by
  rw [after_append]
  simp only [List.foldl_cons, List.foldl_nil, act]
  have hb : way k { choose k i (after k l) with intr := true } = .bad := by
    rcases h with ⟨rfl, rfl⟩ | ⟨rfl, h1, h2⟩ | rfl
    · rfl
    · have : i = 2 ∨ i = 3 ∨ i = 4 ∨ i = 5 := by omega
      rcases this with rfl | rfl | rfl | rfl <;> rfl
    · rfl
  exact transport_bad hb

/-- **C103, one set for two**: the third and the fourth set of `Sphere`, documented as different vector transports, are the same configuration. -/
theorem C103_sphere_same (l : List Act) : after .sphere (l ++ [.choose 3]) = after .sphere (l ++ [.choose 4]) := by
  rw [after_append, after_append]
  rfl

/-- A sequence of calls, with every hypothesis of the theorems above met. -/
example : offers .stiefel 3 = true ∧ after .stiefel [.choose 5, .hhr true, .intr true, .choose 3] = after .stiefel [.choose 3] ∧
    (after .spd [.hhr true, .choose 1]).hhr = some true ∧ lastHHR [.hhr true, .choose 1] = some true ∧ lastHHR [.choose 1, .intr false] = none := by
  refine ⟨rfl, rfl, rfl, rfl, rfl⟩

/-- The theorems apply to the two steps in the plane: `Stiefel` with the first set, and `Stiefel` with projection. -/
example : (Undoes .stiefel (after .stiefel [.choose 1])) ∧ ¬ Undoes .stiefel (after .stiefel [.choose 2]) := by
  constructor
  · exact ((C103_set_table (k := .stiefel) (i := 1) (.inl rfl) rfl []).1).mpr rfl
  · intro h
    have := ((C103_set_table (k := .stiefel) (i := 2) (.inl rfl) rfl []).1).mp h
    simp [table] at this

example : Gint.Valid .stiefel (after .stiefel [.choose 1]) ∧ Gext.Valid .stiefel (after .stiefel [.choose 2]) := ⟨Gint_valid _ _, Gext_valid rfl⟩

/-! ## The scaling of the locking condition -/

/-- The classes whose `Beta` returns the stored number. -/
def hasBeta : Option Cls → Bool
  | some .stiefel | some .cstiefel | some .sphere | some .grassmann | some .spd => true
  | _ => false

/-- **C104, value**: `Beta` is the number stored by `DiffRetraction` exactly for the five classes that override it and with reflections; otherwise it is one. -/
theorem C104_beta (k : Option Cls) (c : Cfg) (b : ℝ) {h : Bool} (hh : c.hhr = some h) :
    beta k c (some b) = some (if hasBeta k && h then b else 1) := by
  cases k with
  | none => cases h <;> rfl
  | some k => cases k <;> cases h <;> simp [beta, hasBeta, hh]

section
variable {E : Type} [NormedAddCommGroup E] [InnerProductSpace ℝ E]

/-- **C104, inner product**: with an isometric transport that satisfies the locking condition `T η = β d` (`d` the differentiated retraction in the direction `η`), `⟨s, y⟩` is the directional derivative at the new
point scaled by `β / B`, minus the one at the old point. -/
theorem C104_inner {T : E → E} {η gf1 gf2 d : E} {β B : ℝ} (hiso : ∀ u v, ⟪T u, T v⟫_ℝ = ⟪u, v⟫_ℝ) (hlock : T η = β • d) :
    ⟪T η, secantY T B gf1 gf2⟫_ℝ = β / B * ⟪d, gf2⟫_ℝ - ⟪η, gf1⟫_ℝ := by
  rw [secantY, inner_sub_right, hiso, inner_smul_right, hlock, inner_smul_left]
  simp
  ring

/-- **C104, curvature**: dividing by the stored number, every step accepted by the Wolfe curvature condition gives `⟨s, y⟩ > 0`. -/
theorem C104_wolfe_positive {T : E → E} {η gf1 gf2 d : E} {β c2 : ℝ} (hiso : ∀ u v, ⟪T u, T v⟫_ℝ = ⟪u, v⟫_ℝ) (hlock : T η = β • d) (hβ : β ≠ 0)
    (hs : ⟪η, gf1⟫_ℝ < 0) (hc : c2 < 1) (hw : c2 * ⟪η, gf1⟫_ℝ ≤ ⟪d, gf2⟫_ℝ) : 0 < ⟪T η, secantY T β gf1 gf2⟫_ℝ := by
  rw [C104_inner hiso hlock, div_self hβ, one_mul]
  nlinarith

/-- **C104, without the number**: dividing by one instead, the inequality still holds if `β ≤ 1 / c2`... -/
theorem C104_unscaled_positive {T : E → E} {η gf1 gf2 d : E} {β c2 : ℝ} (hiso : ∀ u v, ⟪T u, T v⟫_ℝ = ⟪u, v⟫_ℝ) (hlock : T η = β • d) (hβ : 0 < β)
    (hs : ⟪η, gf1⟫_ℝ < 0) (hc : β * c2 < 1) (hw : c2 * ⟪η, gf1⟫_ℝ ≤ ⟪d, gf2⟫_ℝ) : 0 < ⟪T η, secantY T 1 gf1 gf2⟫_ℝ := by
  rw [C104_inner hiso hlock, div_one]
  have := mul_le_mul_of_nonneg_left hw hβ.le
  nlinarith

/-- ... and for every larger `β` there is a step that satisfies the Wolfe condition and has `⟨s, y⟩ < 0`. -/
theorem C104_unscaled_fails {β c2 : ℝ} (hc0 : 0 < c2) (hc1 : c2 < 1) (hβ : 1 < β * c2) :
    ∃ (η gf1 gf2 d : ℝ), (id η = β • d) ∧ ⟪η, gf1⟫_ℝ < 0 ∧ c2 * ⟪η, gf1⟫_ℝ ≤ ⟪d, gf2⟫_ℝ ∧ ⟪id η, secantY id 1 gf1 gf2⟫_ℝ < 0 := by
  have hb : 0 < β := by
    by_contra h
    have : β * c2 ≤ 0 := mul_nonpos_of_nonpos_of_nonneg (not_lt.mp h) hc0.le
    linarith
  refine ⟨1, -1, -(c2 * β), 1 / β, ?_, ?_, ?_, ?_⟩
  · simp [hb.ne']
  · simp
  · simp
    field_simp
    rfl
  · simp [secantY]
    linarith

/-- **C104, consequence**: with reflections, `⟨s, y⟩ > 0` follows from the Wolfe condition in the classes with `hasBeta`; in all other classes, and for all products of manifolds, the code divides by one, and there are
steps for which `⟨s, y⟩` is negative. -/
theorem C104_classes (k : Option Cls) (c : Cfg) (hh : c.hhr = some true) :
    (∀ (E : Type) [NormedAddCommGroup E] [InnerProductSpace ℝ E] (T : E → E) (η gf1 gf2 d : E) (β c2 B : ℝ),
      (∀ u v, ⟪T u, T v⟫_ℝ = ⟪u, v⟫_ℝ) → T η = β • d → 0 < β → ⟪η, gf1⟫_ℝ < 0 → 0 < c2 → c2 < 1 → c2 * ⟪η, gf1⟫_ℝ ≤ ⟪d, gf2⟫_ℝ →
      beta k c (some β) = some B → 0 < ⟪T η, secantY T B gf1 gf2⟫_ℝ) ↔ hasBeta k = true := by
  constructor
  · intro h
    by_contra hk
    obtain ⟨η, gf1, gf2, d, a1, a2, a3, a4⟩ := C104_unscaled_fails (β := 4) (c2 := 1 / 2) (by norm_num) (by norm_num) (by norm_num)
    have e := C104_beta k c 4 hh
    rw [Bool.not_eq_true] at hk
    rw [hk] at e
    exact absurd (h ℝ id η gf1 gf2 d 4 (1 / 2) 1 (fun _ _ => rfl) a1 (by norm_num) a2 (by norm_num) (by norm_num) a3 (by simpa using e)) (not_lt.mpr a4.le)
  · intro hk E _ _ T η gf1 gf2 d β c2 B hiso hlock hβ hs _ hc hw hB
    rw [C104_beta k c β hh, hk] at hB
    simp at hB
    subst hB
    exact C104_wolfe_positive hiso hlock hβ.ne' hs hc hw

example : hasBeta (some .stiefel) = true ∧ hasBeta none = false ∧ hasBeta (some .symFR) = false ∧ (after .symFR [.hhr true]).hhr = some true := ⟨rfl, rfl, rfl, rfl⟩

/-- The hypotheses of the curvature theorem are met by a step on the line. -/
example : 0 < ⟪(id (1 : ℝ)), secantY id 2 (-1) (1 : ℝ)⟫_ℝ :=
  C104_wolfe_positive (d := 1 / 2) (c2 := 1 / 2) (fun _ _ => rfl) (by norm_num) (by norm_num) (by norm_num) (by norm_num) (by norm_num)

end

end Verif.Dispatch
