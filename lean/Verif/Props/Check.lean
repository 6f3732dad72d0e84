import Verif.Manifold.Check
import Verif.Props.Sphere
import Mathlib.Analysis.Calculus.Deriv.Slope
import Mathlib.Analysis.SpecialFunctions.Trigonometric.Bounds
import Mathlib.Tactic.Module
import Mathlib.Tactic.Linarith
import Mathlib.Tactic.Positivity

/-!
# C133: what the self-tests of a manifold test
-/

namespace Verif.Check

open Verif.Sphere
open scoped RealInnerProductSpace

set_option linter.unusedSectionVars false

variable {X E I : Type}

/-- The two things the user is told to compare were computed and are equal. -/
def Pass {α : Type} (r : Option (α × α)) : Prop := ∃ a, r = some (a, a)

/-- The vectors the projection leaves alone. -/
def Tangent (M : Mani X E I) (x : X) : Set E := {e | M.proj x e = e}

/-- Projecting twice is projecting once. -/
def ProjIdem (M : Mani X E I) : Prop := ∀ x v, M.proj x (M.proj x v) = M.proj x v

theorem pass_iff {α : Type} {o : Option (α × α)} {a b : α} (h : o = some (a, b)) : Pass o ↔ a = b := by
  subst h
  constructor
  · rintro ⟨c, hc⟩
    rw [Option.some.injEq, Prod.mk.injEq] at hc
    exact hc.1.trans hc.2.symm
  · rintro rfl
    exact ⟨a, rfl⟩

theorem pass_bind {α β : Type} {o : Option β} {f : β → Option (α × α)} : Pass (o.bind f) ↔ ∃ b, o = some b ∧ Pass (f b) := by
  cases o with
  | none => simp [Pass]
  | some b => simp

theorem pass_map {α β : Type} {o : Option β} {f g : β → α} : Pass (o.map fun b => (f b, g b)) ↔ ∃ b, o = some b ∧ f b = g b := by
  cases o with
  | none => simp [Pass]
  | some b => simp [Pass, eq_comm]

theorem pass_map_const {α β : Type} {o : Option β} {a : α} {g : β → α} : Pass (o.map fun b => (a, g b)) ↔ ∃ b, o = some b ∧ a = g b :=
  pass_map (f := fun _ => a)

theorem pass_map_id {α : Type} {o : Option α} {a : α} : Pass (o.map fun b => (a, b)) ↔ ∃ b, o = some b ∧ a = b := pass_map (f := fun _ => a) (g := fun b => b)

/-- **C133, coordinates.** `CheckIntrExtr` shows agreement for every draw exactly if coordinates preserve lengths and the way back restores the vector; it leaves the setting of the manifold
as it was. -/
theorem C133_intr_extr (M : Mani X E I) (hP : ProjIdem M) (x : X) :
    ((∀ v, (checkIntrExtr M x v).inpE = (checkIntrExtr M x v).inpI ∧ (checkIntrExtr M x v).ex1 = (checkIntrExtr M x v).ex2 ∧
        (checkIntrExtr M x v).in1 = (checkIntrExtr M x v).in2) ↔
      ∀ e ∈ Tangent M x, M.metI x (M.toI x e) (M.toI x e) = M.metE x e e ∧ M.toE x (M.toI x e) = e) ∧
      ∀ v, (checkIntrExtr M x v).flag = M.intr := by
  refine ⟨⟨fun h e he => ?_, fun h v => ?_⟩, fun v => rfl⟩
  · have h1 := h e
    have he' : M.proj x e = e := he
    simp only [checkIntrExtr, Mani.metOnE, Mani.metOnI, he', if_true] at h1
    exact ⟨h1.1.symm, h1.2.1.symm⟩
  · have h1 := h (M.proj x v) (hP x v)
    simp only [checkIntrExtr, Mani.metOnE, Mani.metOnI, if_true]
    exact ⟨h1.1.symm, h1.2.symm, by rw [h1.2]⟩

/-- **C133, coordinates (what is not seen).** The test shows agreement for every draw although there are more coordinates than the tangent space has dimensions. -/
theorem C133_intr_extr_blind : ∃ M : Mani Unit ℝ (ℝ × ℝ), ProjIdem M ∧
    (∀ v, (checkIntrExtr M () v).inpE = (checkIntrExtr M () v).inpI ∧ (checkIntrExtr M () v).ex1 = (checkIntrExtr M () v).ex2 ∧
        (checkIntrExtr M () v).in1 = (checkIntrExtr M () v).in2) ∧ ∃ i, M.toI () (M.toE () i) ≠ i := by
  refine ⟨{ intr := true, pt := fun _ => 0, proj := fun _ v => v, toI := fun _ e => (e, 0), toE := fun _ i => i.1, metE := fun _ a b => a * b, metEI := fun _ _ _ => 0,
            metI := fun _ a b => a.1 * b.1 + a.2 * b.2, metIE := fun _ _ _ => 0, retrE := fun _ _ => none, retrI := fun _ _ => none, diffE := fun _ _ _ _ _ => none,
            diffI := fun _ _ _ _ _ => none, betaE := fun _ _ _ => none, betaI := fun _ _ _ => none, vtE := fun _ _ _ _ => none, vtI := fun _ _ _ _ => none,
            ivtE := fun _ _ _ _ => none, ivtI := fun _ _ _ _ => none, coE := fun _ _ _ _ => none, coI := fun _ _ _ _ => none }, fun _ _ => rfl, fun v => ?_, (0, 1), ?_⟩
  · simp [checkIntrExtr, Mani.metOnE, Mani.metOnI]
  · simp

/-- **C133, isometry.** `CheckIsometryofVectorTransport` agrees for every draw (with projections in a set `D`) exactly if the transport along tangent vectors preserves the lengths of tangent
vectors: vectors by entries. -/
theorem C133_isometry (M : Mani X E I) (hP : ProjIdem M) (hi : M.intr = false) (x : X) (D : Set (E × E)) :
    (∀ v w, (M.proj x v, M.proj x w) ∈ D → Pass (checkIso M x v w)) ↔
      ∀ η ∈ Tangent M x, ∀ ξ ∈ Tangent M x, (η, ξ) ∈ D → ∃ y, M.retrE x η = some y ∧ ∃ ζ, M.vtE x η y ξ = some ζ ∧ M.metE x ξ ξ = M.metE y ζ ζ := by
  have key : ∀ v w, Pass (checkIso M x v w) ↔ ∃ y, M.retrE x (M.proj x v) = some y ∧ ∃ ζ, M.vtE x (M.proj x v) y (M.proj x w) = some ζ ∧
      M.metE x (M.proj x w) (M.proj x w) = M.metE y ζ ζ := by
    intro v w
    simp only [checkIso, hi, Bool.false_eq_true, if_false, pass_bind, pass_map, Mani.metOnE]
  constructor
  · intro h η hη ξ hξ hD
    have h1 := (key η ξ).mp (h η ξ (by rw [show M.proj x η = η from hη, show M.proj x ξ = ξ from hξ]; exact hD))
    rwa [show M.proj x η = η from hη, show M.proj x ξ = ξ from hξ] at h1
  · intro h v w hD
    exact (key v w).mpr (h _ (hP x v) _ (hP x w) hD)

/-- **C133, isometry**, vectors by coordinates. -/
theorem C133_isometry_intr (M : Mani X E I) (hP : ProjIdem M) (hi : M.intr = true) (x : X) (D : Set (E × E)) :
    (∀ v w, (M.proj x v, M.proj x w) ∈ D → Pass (checkIso M x v w)) ↔
      ∀ η ∈ Tangent M x, ∀ ξ ∈ Tangent M x, (η, ξ) ∈ D → ∃ y, M.retrI x (M.toI x η) = some y ∧ ∃ ζ, M.vtI x (M.toI x η) y (M.toI x ξ) = some ζ ∧
        M.metI x (M.toI x ξ) (M.toI x ξ) = M.metI y ζ ζ := by
  have key : ∀ v w, Pass (checkIso M x v w) ↔ ∃ y, M.retrI x (M.toI x (M.proj x v)) = some y ∧ ∃ ζ, M.vtI x (M.toI x (M.proj x v)) y (M.toI x (M.proj x w)) = some ζ ∧
      M.metI x (M.toI x (M.proj x w)) (M.toI x (M.proj x w)) = M.metI y ζ ζ := by
    intro v w
    simp only [checkIso, hi, if_true, pass_bind, pass_map, Mani.metOnI]
  constructor
  · intro h η hη ξ hξ hD
    have h1 := (key η ξ).mp (h η ξ (by rw [show M.proj x η = η from hη, show M.proj x ξ = ξ from hξ]; exact hD))
    rwa [show M.proj x η = η from hη, show M.proj x ξ = ξ from hξ] at h1
  · intro h v w hD
    exact (key v w).mpr (h _ (hP x v) _ (hP x w) hD)

/-- **C133, inverse.** `CheckVecTranComposeInverseVecTran` agrees for every draw exactly if the inverse transport undoes the transport on tangent vectors: vectors by entries. -/
theorem C133_compose (M : Mani X E I) (hP : ProjIdem M) (hi : M.intr = false) (x : X) (D : Set (E × E)) :
    (∀ v w, (M.proj x v, M.proj x w) ∈ D → Pass (checkCompose M x v w)) ↔
      ∀ η ∈ Tangent M x, ∀ ξ ∈ Tangent M x, (η, ξ) ∈ D → ∃ y, M.retrE x η = some y ∧ (M.vtE x η y ξ).bind (M.ivtE x η y) = some ξ := by
  have key : ∀ v w, Pass (checkCompose M x v w) ↔ ∃ y, M.retrE x (M.proj x v) = some y ∧ (M.vtE x (M.proj x v) y (M.proj x w)).bind (M.ivtE x (M.proj x v) y) = some (M.proj x w) := by
    intro v w
    simp only [checkCompose, hi, Bool.false_eq_true, if_false, pass_bind, pass_map_id, Option.bind_eq_some_iff]
    constructor
    · rintro ⟨y, hy, ζ, hζ, ξ', hξ', e⟩
      exact ⟨y, hy, ζ, hζ, by rw [hξ', e]⟩
    · rintro ⟨y, hy, ζ, hζ, e⟩
      exact ⟨y, hy, ζ, hζ, _, e, rfl⟩
  constructor
  · intro h η hη ξ hξ hD
    have h1 := (key η ξ).mp (h η ξ (by rw [show M.proj x η = η from hη, show M.proj x ξ = ξ from hξ]; exact hD))
    rwa [show M.proj x η = η from hη, show M.proj x ξ = ξ from hξ] at h1
  · intro h v w hD
    exact (key v w).mpr (h _ (hP x v) _ (hP x w) hD)

/-- **C133, inverse**, vectors by coordinates: what comes back is the same vector (its coordinates may differ if coordinates are not unique). -/
theorem C133_compose_intr (M : Mani X E I) (hP : ProjIdem M) (hi : M.intr = true) (x : X) (D : Set (E × E)) :
    (∀ v w, (M.proj x v, M.proj x w) ∈ D → Pass (checkCompose M x v w)) ↔
      ∀ η ∈ Tangent M x, ∀ ξ ∈ Tangent M x, (η, ξ) ∈ D → ∃ y, M.retrI x (M.toI x η) = some y ∧
        ((M.vtI x (M.toI x η) y (M.toI x ξ)).bind (M.ivtI x (M.toI x η) y)).map (M.toE x) = some ξ := by
  have key : ∀ v w, Pass (checkCompose M x v w) ↔ ∃ y, M.retrI x (M.toI x (M.proj x v)) = some y ∧
      ((M.vtI x (M.toI x (M.proj x v)) y (M.toI x (M.proj x w))).bind (M.ivtI x (M.toI x (M.proj x v)) y)).map (M.toE x) = some (M.proj x w) := by
    intro v w
    simp only [checkCompose, hi, if_true, pass_bind, pass_map_const, Option.bind_eq_some_iff, Option.map_eq_some_iff]
    constructor
    · rintro ⟨y, hy, ζ, hζ, ξ', hξ', e⟩
      exact ⟨y, hy, ξ', ⟨ζ, hζ, hξ'⟩, e.symm⟩
    · rintro ⟨y, hy, ξ', ⟨ζ, hζ, hξ'⟩, e⟩
      exact ⟨y, hy, ζ, hζ, ξ', hξ', e.symm⟩
  constructor
  · intro h η hη ξ hξ hD
    have h1 := (key η ξ).mp (h η ξ (by rw [show M.proj x η = η from hη, show M.proj x ξ = ξ from hξ]; exact hD))
    rwa [show M.proj x η = η from hη, show M.proj x ξ = ξ from hξ] at h1
  · intro h v w hD
    exact (key v w).mpr (h _ (hP x v) _ (hP x w) hD)

section Lin

variable [AddCommGroup E] [Module ℝ E] [AddCommGroup I] [Module ℝ I]

/-- The lengths that `Metric` gives: quadratic, positive except for zero, on the vectors the projection returns; and the projection commutes with scaling. -/
structure Scales (P : E → E) (m : E → E → ℝ) : Prop where
  proj : ∀ (c : ℝ) v, P (c • v) = c • P v
  quad : ∀ (c : ℝ) v, m (c • v) (c • v) = c ^ 2 * m v v
  pos : ∀ v, P v = v → v ≠ 0 → 0 < m v v

/-- Multiplying every drawn vector by its own length leaves no tangent vector out. -/
theorem length_scaled_onto {P : E → E} {m : E → E → ℝ} (h : Scales P m) {μ : E} (hμ : P μ = μ) : ∃ u, P u = u ∧ √(m u u) • u = μ := by
  by_cases h0 : μ = 0
  · subst h0
    exact ⟨0, hμ, smul_zero _⟩
  have hm := h.pos μ hμ h0
  have hs : 0 < √(m μ μ) := Real.sqrt_pos.mpr hm
  have hs2 : 0 < √(√(m μ μ)) := Real.sqrt_pos.mpr hs
  refine ⟨(√(√(m μ μ)))⁻¹ • μ, by rw [h.proj, hμ], ?_⟩
  have e : m ((√(√(m μ μ)))⁻¹ • μ) ((√(√(m μ μ)))⁻¹ • μ) = √(m μ μ) := by
    rw [h.quad, inv_pow, Real.sq_sqrt hs.le]
    rw [inv_mul_eq_div, div_eq_iff hs.ne', Real.mul_self_sqrt hm.le]
  rw [e, smul_smul, mul_inv_cancel₀ hs2.ne', one_smul]

/-- **C133, isometry of the inverse.** `CheckIsometryofInvVectorTransport` agrees for every draw exactly if the inverse transport preserves the lengths of the tangent vectors at the other
point: vectors by entries. -/
theorem C133_inverse_isometry (M : Mani X E I) (hP : ProjIdem M) (hi : M.intr = false) (x : X) (D : Set E) :
    (∀ v w, M.proj x v ∈ D → Pass (checkInvIso M x v w)) ↔
      ∀ η ∈ Tangent M x, η ∈ D → ∃ y, M.retrE x η = some y ∧ ∀ ζ ∈ Tangent M y, ∃ ξ, M.ivtE x η y ζ = some ξ ∧ M.metE y ζ ζ = M.metE x ξ ξ := by
  have key : ∀ v w, Pass (checkInvIso M x v w) ↔ ∃ y, M.retrE x (M.proj x v) = some y ∧ ∃ ξ, M.ivtE x (M.proj x v) y (M.proj y w) = some ξ ∧
      M.metE y (M.proj y w) (M.proj y w) = M.metE x ξ ξ := by
    intro v w
    simp only [checkInvIso, hi, Bool.false_eq_true, if_false, pass_bind, pass_map, Mani.metOnE]
  constructor
  · intro h η hη hD
    have hη' : M.proj x η = η := hη
    have h0 : ∀ w, _ := fun w => (key η w).mp (h η w (by rw [hη']; exact hD))
    rw [hη'] at h0
    obtain ⟨y, hy, _⟩ := h0 η
    refine ⟨y, hy, fun ζ hζ => ?_⟩
    obtain ⟨y', hy', h1⟩ := h0 ζ
    rw [hy, Option.some.injEq] at hy'
    subst hy'
    rwa [show M.proj y ζ = ζ from hζ] at h1
  · intro h v w hD
    obtain ⟨y, hy, h1⟩ := h _ (hP x v) hD
    exact (key v w).mpr ⟨y, hy, h1 _ (hP y w)⟩

/-- **C133, isometry of the inverse**, vectors by coordinates: the drawn vector is multiplied by its length instead of being normalised, which does no harm. -/
theorem C133_inverse_isometry_intr (M : Mani X E I) (hP : ProjIdem M) (hi : M.intr = true) (hs : ∀ y, Scales (M.proj y) (M.metIE y)) (x : X) (D : Set E) :
    (∀ v w, M.proj x v ∈ D → Pass (checkInvIso M x v w)) ↔
      ∀ η ∈ Tangent M x, η ∈ D → ∃ y, M.retrI x (M.toI x η) = some y ∧ ∀ ζ ∈ Tangent M y, ∃ ξ, M.ivtI x (M.toI x η) y (M.toI y ζ) = some ξ ∧
        M.metI y (M.toI y ζ) (M.toI y ζ) = M.metI x ξ ξ := by
  have key : ∀ v w, Pass (checkInvIso M x v w) ↔ ∃ y, M.retrI x (M.toI x (M.proj x v)) = some y ∧
      ∃ ξ, M.ivtI x (M.toI x (M.proj x v)) y (M.toI y (√(M.metIE y (M.proj y w) (M.proj y w)) • M.proj y w)) = some ξ ∧
        M.metI y (M.toI y (√(M.metIE y (M.proj y w) (M.proj y w)) • M.proj y w)) (M.toI y (√(M.metIE y (M.proj y w) (M.proj y w)) • M.proj y w)) = M.metI x ξ ξ := by
    intro v w
    simp only [checkInvIso, hi, if_true, pass_bind, pass_map, Mani.metOnE, Mani.metOnI]
  constructor
  · intro h η hη hD
    have hη' : M.proj x η = η := hη
    have h0 : ∀ w, _ := fun w => (key η w).mp (h η w (by rw [hη']; exact hD))
    rw [hη'] at h0
    obtain ⟨y, hy, _⟩ := h0 η
    refine ⟨y, hy, fun ζ hζ => ?_⟩
    obtain ⟨u, hu, hu2⟩ := length_scaled_onto (hs y) hζ
    obtain ⟨y', hy', h1⟩ := h0 u
    rw [hy, Option.some.injEq] at hy'
    subst hy'
    rwa [hu, hu2] at h1
  · intro h v w hD
    obtain ⟨y, hy, h1⟩ := h _ (hP x v) hD
    exact (key v w).mpr ⟨y, hy, h1 _ (by
      change M.proj y _ = _
      rw [(hs y).proj, hP y w])⟩

/-- **C133, cotangent vectors.** `CheckcoTangentVector` agrees for every draw exactly if `coTangentVector` is adjoint to `DiffRetraction` on tangent vectors: vectors by entries. -/
theorem C133_cotangent (M : Mani X E I) (hP : ProjIdem M) (hi : M.intr = false) (hs : ∀ y, Scales (M.proj y) (M.metE y)) (x : X) (D : Set (E × E)) :
    (∀ v w u, (M.proj x v, M.proj x w) ∈ D → Pass (checkCoTangent M x v w u)) ↔
      ∀ η ∈ Tangent M x, ∀ ξ ∈ Tangent M x, (η, ξ) ∈ D → ∃ y, M.retrE x η = some y ∧ ∃ ζ, M.diffE x η y ξ false = some ζ ∧
        ∀ μ ∈ Tangent M y, ∃ c, M.coE x η y μ = some c ∧ M.metE y μ ζ = M.metE x c ξ := by
  have key : ∀ v w u, Pass (checkCoTangent M x v w u) ↔ ∃ y, M.retrE x (M.proj x v) = some y ∧ ∃ ζ, M.diffE x (M.proj x v) y (M.proj x w) false = some ζ ∧
      ∃ c, M.coE x (M.proj x v) y (√(M.metE y (M.proj y u) (M.proj y u)) • M.proj y u) = some c ∧
        M.metE y (√(M.metE y (M.proj y u) (M.proj y u)) • M.proj y u) ζ = M.metE x c (M.proj x w) := by
    intro v w u
    simp only [checkCoTangent, hi, Bool.false_eq_true, if_false, pass_bind, pass_map, Mani.metOnE]
  constructor
  · intro h η hη ξ hξ hD
    have hη' : M.proj x η = η := hη
    have hξ' : M.proj x ξ = ξ := hξ
    have h0 : ∀ u, _ := fun u => (key η ξ u).mp (h η ξ u (by rw [hη', hξ']; exact hD))
    rw [hη', hξ'] at h0
    obtain ⟨y, hy, ζ, hζ, _⟩ := h0 η
    refine ⟨y, hy, ζ, hζ, fun μ hμ => ?_⟩
    obtain ⟨u, hu, hu2⟩ := length_scaled_onto (hs y) hμ
    obtain ⟨y', hy', ζ', hζ', h1⟩ := h0 u
    rw [hy, Option.some.injEq] at hy'
    subst hy'
    rw [hζ, Option.some.injEq] at hζ'
    subst hζ'
    rwa [hu, hu2] at h1
  · intro h v w u hD
    obtain ⟨y, hy, ζ, hζ, h1⟩ := h _ (hP x v) _ (hP x w) hD
    exact (key v w u).mpr ⟨y, hy, ζ, hζ, h1 _ (by
      change M.proj y _ = _
      rw [(hs y).proj, hP y u])⟩

/-- **C133, cotangent vectors**, vectors by coordinates. -/
theorem C133_cotangent_intr (M : Mani X E I) (hP : ProjIdem M) (hi : M.intr = true) (x : X) (D : Set (E × E)) :
    (∀ v w u, (M.proj x v, M.proj x w) ∈ D → Pass (checkCoTangent M x v w u)) ↔
      ∀ η ∈ Tangent M x, ∀ ξ ∈ Tangent M x, (η, ξ) ∈ D → ∃ y, M.retrI x (M.toI x η) = some y ∧ ∃ ζ, M.diffI x (M.toI x η) y (M.toI x ξ) false = some ζ ∧
        ∀ μ ∈ Tangent M y, ∃ c, M.coI x (M.toI x η) y (M.toI y μ) = some c ∧ M.metI y (M.toI y μ) ζ = M.metI x c (M.toI x ξ) := by
  have key : ∀ v w u, Pass (checkCoTangent M x v w u) ↔ ∃ y, M.retrI x (M.toI x (M.proj x v)) = some y ∧
      ∃ ζ, M.diffI x (M.toI x (M.proj x v)) y (M.toI x (M.proj x w)) false = some ζ ∧
      ∃ c, M.coI x (M.toI x (M.proj x v)) y (M.toI y (M.proj y u)) = some c ∧ M.metI y (M.toI y (M.proj y u)) ζ = M.metI x c (M.toI x (M.proj x w)) := by
    intro v w u
    simp only [checkCoTangent, hi, if_true, pass_bind, pass_map, Mani.metOnI]
  constructor
  · intro h η hη ξ hξ hD
    have hη' : M.proj x η = η := hη
    have hξ' : M.proj x ξ = ξ := hξ
    have h0 : ∀ u, _ := fun u => (key η ξ u).mp (h η ξ u (by rw [hη', hξ']; exact hD))
    rw [hη', hξ'] at h0
    obtain ⟨y, hy, ζ, hζ, _⟩ := h0 η
    refine ⟨y, hy, ζ, hζ, fun μ hμ => ?_⟩
    obtain ⟨y', hy', ζ', hζ', h1⟩ := h0 μ
    rw [hy, Option.some.injEq] at hy'
    subst hy'
    rw [hζ, Option.some.injEq] at hζ'
    subst hζ'
    rwa [show M.proj y μ = μ from hμ] at h1
  · intro h v w u hD
    obtain ⟨y, hy, ζ, hζ, h1⟩ := h _ (hP x v) _ (hP x w) hD
    exact (key v w u).mpr ⟨y, hy, ζ, hζ, h1 _ (hP y u)⟩

/-- **C133, cotangent vectors (what is not seen).** A class that inherits `DiffRetraction` and `coTangentVector` passes the test for every draw and every retraction, if its projections are
self-adjoint for one inner product: both functions are wrong in a way that agrees. -/
theorem C133_cotangent_blind (M : Mani X E I) (hi : M.intr = false) (hP : ProjIdem M) (hs : ∀ y, Scales (M.proj y) (M.metE y)) (hd : M.diffE = baseDiff M.proj) (hc : M.coE = baseCo M.proj)
    (hm : ∀ x y, M.metE x = M.metE y) (hsa : ∀ x a b, M.metE x (M.proj x a) b = M.metE x a (M.proj x b)) (hr : ∀ x η, ∃ y, M.retrE x η = some y) (x : X) (v w u : E) :
    Pass (checkCoTangent M x v w u) := by
  refine (C133_cotangent M hP hi hs x Set.univ).mpr (fun η hη ξ hξ _ => ?_) v w u trivial
  obtain ⟨y, hy⟩ := hr x η
  refine ⟨y, hy, M.proj y ξ, by rw [hd]; rfl, fun μ hμ => ⟨M.proj x μ, by rw [hc]; rfl, ?_⟩⟩
  rw [← hsa y, show M.proj y μ = μ from hμ, hsa x, show M.proj x ξ = ξ from hξ, hm y x]

/-- **C133, isometry (inner products).** If the transport is additive and the metrics are symmetric and biadditive, agreement of `CheckIsometryofVectorTransport` for all draws gives
preservation of all inner products. -/
theorem C133_isometry_inner (M : Mani X E I) (hP : ProjIdem M) (hi : M.intr = false) {x y : X} {η : E} (hη : η ∈ Tangent M x) (hy : M.retrE x η = some y)
    (hT : ∀ a b, a ∈ Tangent M x → b ∈ Tangent M x → a + b ∈ Tangent M x) (T : E → E) (hv : ∀ ξ, M.vtE x η y ξ = some (T ξ)) (hTa : ∀ a b, T (a + b) = T a + T b)
    (hma : ∀ z a b c, M.metE z (a + b) c = M.metE z a c + M.metE z b c) (hms : ∀ z a b, M.metE z a b = M.metE z b a)
    (h : ∀ v w, Pass (checkIso M x v w)) {a b : E} (ha : a ∈ Tangent M x) (hb : b ∈ Tangent M x) : M.metE y (T a) (T b) = M.metE x a b := by
  have key : ∀ c ∈ Tangent M x, M.metE x c c = M.metE y (T c) (T c) := by
    intro c hc
    obtain ⟨y', hy', ζ, hζ, e⟩ := (C133_isometry M hP hi x Set.univ).mp (fun v w _ => h v w) η hη c hc trivial
    rw [hy, Option.some.injEq] at hy'
    subst hy'
    rw [hv, Option.some.injEq] at hζ
    rw [e, ← hζ]
  have h1 := key a ha
  have h2 := key b hb
  have h3 := key (a + b) (hT a b ha hb)
  have e1 : ∀ z p q, M.metE z (p + q) (p + q) = M.metE z p p + 2 * M.metE z p q + M.metE z q q := by
    intro z p q
    rw [hma, hms z p (p + q), hms z q (p + q), hma, hma, hms z q p]; ring
  rw [hTa, e1, e1] at h3
  linarith

/-- **C133, locking.** `CheckLockingCondition` agrees for a draw exactly if the transport of the direction is its image under the differentiated retraction, scaled to the length of the
direction: vectors by entries. -/
theorem C133_locking (M : Mani X E I) (hi : M.intr = false) (x : X) (v : E) {y : X} {ζ τ : E} (hy : M.retrE x (M.proj x v) = some y)
    (hζ : M.diffE x (M.proj x v) y (M.proj x v) true = some ζ) (hτ : M.vtE x (M.proj x v) y (M.proj x v) = some τ) (h0 : M.metE y ζ ζ ≠ 0) :
    ∃ r, checkLocking M x v = some r ∧ r.ratio = √(M.metE x (M.proj x v) (M.proj x v) / M.metE y ζ ζ) ∧ r.beta = (M.betaE x (M.proj x v) y).getD 1 ∧
      (r.scaled = r.vt ↔ τ = √(M.metE x (M.proj x v) (M.proj x v) / M.metE y ζ ζ) • ζ) := by
  refine ⟨⟨(M.betaE x (M.proj x v) y).getD 1, √(M.metE x (M.proj x v) (M.proj x v) / M.metE y ζ ζ), √(M.metE x (M.proj x v) (M.proj x v) / M.metE y ζ ζ) • ζ, τ⟩, ?_, rfl, rfl, eq_comm⟩
  simp only [checkLocking, hi, Bool.false_eq_true, if_false, one_smul, hy, Option.bind_some, hζ, Mani.metOnE, fdiv_of_ne h0, hτ, Option.map_some]

/-- **C133, locking**, vectors by coordinates; the length of the image is taken at `x`, so the metric of coordinates has to be the same at both points. -/
theorem C133_locking_intr (M : Mani X E I) (hi : M.intr = true) (x : X) (v : E) {y : X} {ζ τ : I} (hm : M.metI y = M.metI x) (hinj : Function.Injective (M.toE y))
    (hy : M.retrI x (M.toI x (M.proj x v)) = some y)
    (hζ : M.diffI x (M.toI x (M.proj x v)) y (M.toI x (M.proj x v)) true = some ζ) (hτ : M.vtI x (M.toI x (M.proj x v)) y (M.toI x (M.proj x v)) = some τ)
    (h0 : M.metI y ζ ζ ≠ 0) :
    ∃ r, checkLocking M x v = some r ∧ r.ratio = √(M.metI x (M.toI x (M.proj x v)) (M.toI x (M.proj x v)) / M.metI y ζ ζ) ∧ r.beta = (M.betaI x (M.toI x (M.proj x v)) y).getD 1 ∧
      (r.scaled = r.vt ↔ τ = √(M.metI x (M.toI x (M.proj x v)) (M.toI x (M.proj x v)) / M.metI y ζ ζ) • ζ) := by
  rw [hm] at h0 ⊢
  refine ⟨⟨(M.betaI x (M.toI x (M.proj x v)) y).getD 1, √(M.metI x (M.toI x (M.proj x v)) (M.toI x (M.proj x v)) / M.metI x ζ ζ),
    M.toE y (√(M.metI x (M.toI x (M.proj x v)) (M.toI x (M.proj x v)) / M.metI x ζ ζ) • ζ), M.toE y τ⟩, ?_, rfl, rfl, hinj.eq_iff.trans eq_comm⟩
  simp only [checkLocking, hi, if_true, one_smul, hy, Option.bind_some, hζ, Mani.metOnI, fdiv_of_ne h0, hτ, Option.map_some]

/-- The inverse retraction of the base class undoes its retraction on the vectors that the projection leaves alone. -/
theorem C133_base_inverse (P : E → E → E) {x η y : E} (hη : P x η = η) (h : baseRetr x η = some y) : baseInvRetr P x y = η := by
  rw [baseRetr, Option.some.injEq] at h
  rw [← h, baseInvRetr, one_smul, neg_smul, one_smul]
  rw [show -x + (η + x) = η by abel, hη]

end Lin

section Quot

variable [NormedAddCommGroup E] [NormedSpace ℝ E]

/-- **C133, retraction.** If the curve `t ↦ R(t η)` leaves `x` with velocity `a`, up to `c t²`, the difference quotient that `CheckRetraction` prints differs from `a` by at most `c eps`; so
the two printed vectors differ by the error of the velocity up to `c eps`, and by at most `c eps` for a correct retraction. -/
theorem C133_retraction [AddCommGroup I] [Module ℝ I] (M : Mani X E I) {eps c : ℝ} (he : 0 < eps) (x : X) (v : E) {η a : E} {y : X} (hn : √(M.metOnE x (M.proj x v) (M.proj x v)) ≠ 0)
    (hη : η = (1 / √(M.metOnE x (M.proj x v) (M.proj x v))) • M.proj x v) (hy : M.retr x (eps • η) = some y) (hc : ‖M.pt y - M.pt x - eps • a‖ ≤ c * eps ^ 2) :
    ∃ q, checkRetraction M eps x v = some (η, q) ∧ ‖q - a‖ ≤ c * eps ∧ |‖q - η‖ - ‖a - η‖| ≤ c * eps ∧ (a = η → ‖q - η‖ ≤ c * eps) := by
  refine ⟨eps⁻¹ • (M.pt y - M.pt x), ?_, ?_⟩
  · simp only [checkRetraction, fdiv_of_ne hn, Option.bind_some, ← hη, hy, Option.map_some]
  · have h1 : ‖eps⁻¹ • (M.pt y - M.pt x) - a‖ ≤ c * eps := by
      have e : eps⁻¹ • (M.pt y - M.pt x) - a = eps⁻¹ • (M.pt y - M.pt x - eps • a) := by
        rw [smul_sub eps⁻¹ _ (eps • a), smul_smul, inv_mul_cancel₀ he.ne', one_smul]
      rw [e, norm_smul, Real.norm_of_nonneg (by positivity)]
      calc eps⁻¹ * ‖M.pt y - M.pt x - eps • a‖ ≤ eps⁻¹ * (c * eps ^ 2) := by gcongr
        _ = c * eps := by field_simp
    refine ⟨h1, ?_, fun h => by rw [← h]; exact h1⟩
    have h2 := abs_norm_sub_norm_le (eps⁻¹ • (M.pt y - M.pt x) - η) (a - η)
    rw [show eps⁻¹ • (M.pt y - M.pt x) - η - (a - η) = eps⁻¹ • (M.pt y - M.pt x) - a by abel] at h2
    exact h2.trans h1

/-- The curve that `CheckDiffRetraction` differentiates. -/
noncomputable def curve [AddCommGroup I] [Module ℝ I] (M : Mani X E I) (x : X) (η ξ : E) (t : ℝ) : E := ((M.retr x (t • ξ + η)).map M.pt).getD 0

/-- **C133, differentiated retraction.** If the curve `t ↦ R(η + t ξ)` has the velocity `a`, the second vector that `CheckDiffRetraction` prints tends to the projection of `a` when the
difference step tends to zero, and the first one is what `DiffRetraction` returns. -/
theorem C133_diff [AddCommGroup I] [Module ℝ I] (M : Mani X E I) (x : X) (same : Bool) (v w : E) {η ξ a ζ : E} {y : X} (hη : M.proj x v = η)
    (hξ : (if same then η else M.proj x w) = ξ) (hy : M.retr x η = some y)
    (hζ : (if M.intr then (M.diffI x (M.toI x η) y (M.toI x ξ) same).map (M.toE y) else M.diffE x η y ξ same) = some ζ)
    (hdef : ∀ t : ℝ, ∃ z, M.retr x (t • ξ + η) = some z) (L : E →L[ℝ] E) (hL : ∀ u, M.proj y u = L u) (ha : HasDerivAt (curve M x η ξ) a 0) :
    ∃ q : ℝ → E, (∀ eps, checkDiff M eps x same v w = some (ζ, q eps)) ∧ Filter.Tendsto q (nhdsWithin 0 {0}ᶜ) (nhds (M.proj y a)) := by
  refine ⟨fun eps => L (eps⁻¹ • (curve M x η ξ eps - curve M x η ξ 0)), fun eps => ?_, ?_⟩
  · obtain ⟨z, hz⟩ := hdef eps
    have e0 : curve M x η ξ 0 = M.pt y := by simp only [curve, zero_smul, zero_add, hy, Option.map_some, Option.getD_some]
    have e1 : curve M x η ξ eps = M.pt z := by simp only [curve, hz, Option.map_some, Option.getD_some]
    simp only [checkDiff, hη, hξ, hy, Option.bind_some, hζ, hz, Option.map_some, hL, e0, e1]
  · rw [hL]
    have h := hasDerivAt_iff_tendsto_slope_zero.mp ha
    have h2 := (L.continuous.tendsto a).comp h
    refine h2.congr (fun t => ?_)
    simp only [Function.comp, zero_add]

end Quot

/-! ## The spheres -/

section Spheres

variable [NormedAddCommGroup E] [InnerProductSpace ℝ E]

theorem scales_sphere (y : E) : Scales (proj y) (fun a b : E => ⟪a, b⟫) where
  proj c v := by
    simp only [proj, inner_smul_right, smul_sub, smul_smul]
    congr 2
    ring
  quad c v := by simp only [inner_smul_left, inner_smul_right, RCLike.conj_to_real]; ring
  pos v _ h := real_inner_self_pos.mpr h

/-- A step `η` that does not vanish and does not end at the antipode. -/
def Short (η : E) : Prop := η ≠ 0 ∧ Real.cos ‖η‖ ≠ -1

theorem expo_ne_neg {x η : E} (hx : ‖x‖ = 1) (ht : ⟪x, η⟫ = 0) (h : Short η) : expo x η ≠ -x := by
  intro e
  apply h.2
  have hxy : ⟪x, expo x η⟫ = Real.cos ‖η‖ := by
    simp only [expo, inner_add_right, real_inner_smul_right, ht, real_inner_self_eq_norm_sq, hx]; ring
  rw [← hxy, e, inner_neg_right, real_inner_self_eq_norm_sq, hx]; norm_num

theorem expo_norm {x η : E} (hx : ‖x‖ = 1) (ht : ⟪x, η⟫ = 0) (h : η ≠ 0) : ‖expo x η‖ = 1 := by
  rw [← sqrt_inner, expo_inner hx ht h, Real.sqrt_one]

/-- **C133, the unit sphere.** `Sphere` with exponential map and parallel translation passes the tests of isometry and of the inverse at every point of the sphere, for every draw that is
projected neither to zero nor to a step to the antipode. -/
theorem C133_sphere_transport {x : E} (hx : ‖x‖ = 1) (v w : E) (hs : Short (proj x v)) :
    Pass (checkIso sphereExp x v w) ∧ Pass (checkCompose sphereExp x v w) := by
  have ht : ⟪x, proj x v⟫ = 0 := (C33_projection hx v v).1
  have ht2 : ⟪x, proj x w⟫ = 0 := (C33_projection hx w w).1
  have hr := expRetraction_eq hx ht hs.1
  have hyn := expo_norm hx ht hs.1
  have hne := expo_ne_neg hx ht hs
  have hT := transport_eq hne (proj x w)
  constructor
  · have hiso := C34_transport_isometry hx hyn hne ht2 ht2 hT hT
    simp only [checkIso, sphereExp, Bool.false_eq_true, if_false, hr, Option.bind_some, hT, Option.map_some, Mani.metOnE]
    exact ⟨_, by rw [hiso]⟩
  · have hinv := (C34_inverse_transport hx hyn hne (proj x w)).1 ht2
    rw [hT, Option.bind_some] at hinv
    simp only [checkCompose, sphereExp, Bool.false_eq_true, if_false, hr, Option.bind_some, hT, hinv, Option.map_some]
    exact ⟨_, rfl⟩

/-- **C133, the unit sphere**: it passes the test of the cotangent vector for every such draw. -/
theorem C133_sphere_cotangent {x : E} (hx : ‖x‖ = 1) (v w u : E) (h0 : proj x v ≠ 0) : Pass (checkCoTangent sphereExp x v w u) := by
  have ht : ⟪x, proj x v⟫ = 0 := (C33_projection hx v v).1
  have ht2 : ⟪x, proj x w⟫ = 0 := (C33_projection hx w w).1
  have hr := expRetraction_eq hx ht h0
  have hn : ‖proj x v‖ ≠ 0 := norm_ne_zero_iff.mpr h0
  have hd := expDiff_eq (x := x) (ξ := proj x w) h0
  obtain ⟨c, hc⟩ : ∃ c, expCoTangent x (proj x v) (√⟪proj (expo x (proj x v)) u, proj (expo x (proj x v)) u⟫ • proj (expo x (proj x v)) u) = some c := by
    simp only [expCoTangent, sqrt_inner, fdiv_of_ne hn, Option.bind_some, Option.map_some, Option.some.injEq, exists_eq']
  have hadj := C63_sphere_cotangent_adjoint hx ht2 h0 hc hd
  simp only [checkCoTangent, sphereExp, Bool.false_eq_true, if_false, hr, Option.bind_some, hd, Mani.metOnE, hc, Option.map_some]
  exact ⟨_, by rw [hadj]⟩

/-- **C133, the unit sphere**: the two vectors printed by `CheckRetraction` differ by at most the difference step. -/
theorem C133_sphere_retraction {x : E} (hx : ‖x‖ = 1) {eps : ℝ} (he : 0 < eps) (he1 : eps ≤ 1) (v : E) (h0 : proj x v ≠ 0) :
    ∃ η q, checkRetraction sphereExp eps x v = some (η, q) ∧ ‖η‖ = 1 ∧ ‖q - η‖ ≤ eps := by
  have ht : ⟪x, proj x v⟫ = 0 := (C33_projection hx v v).1
  have hn : ‖proj x v‖ ≠ 0 := norm_ne_zero_iff.mpr h0
  obtain ⟨η, hη⟩ : ∃ η : E, η = (1 / √⟪proj x v, proj x v⟫) • proj x v := ⟨_, rfl⟩
  have hη1 : ‖η‖ = 1 := by
    rw [hη, sqrt_inner, norm_smul, Real.norm_of_nonneg (by positivity)]; field_simp
  have hxη : ⟪x, η⟫ = 0 := by rw [hη, real_inner_smul_right, ht, mul_zero]
  have hηx : ⟪η, x⟫ = 0 := by rw [real_inner_comm]; exact hxη
  have heη : eps • η ≠ 0 := by
    rw [← norm_ne_zero_iff, norm_smul, hη1, mul_one]
    exact norm_ne_zero_iff.mpr he.ne'
  have hnorm : ‖eps • η‖ = eps := by rw [norm_smul, hη1, mul_one, Real.norm_of_nonneg he.le]
  have hr := expRetraction_eq hx (η := eps • η) (by rw [real_inner_smul_right, hxη, mul_zero]) heη
  have hbound : ‖expo x (eps • η) - x - eps • η‖ ≤ 1 * eps ^ 2 := by
    have e : expo x (eps • η) - x - eps • η = (Real.sin eps - eps) • η + (Real.cos eps - 1) • x := by
      simp only [expo, hnorm, smul_smul]
      rw [div_mul_cancel₀ _ he.ne']
      module
    have e2 : ‖(Real.sin eps - eps) • η + (Real.cos eps - 1) • x‖ ^ 2 = (Real.sin eps - eps) ^ 2 + (Real.cos eps - 1) ^ 2 := by
      rw [norm_add_sq_real, norm_smul, norm_smul, hη1, hx, real_inner_smul_left, real_inner_smul_right, hηx, mul_one, mul_one, Real.norm_eq_abs, Real.norm_eq_abs, sq_abs, sq_abs]
      ring
    have hs1 := Real.sin_le he.le
    have hs2 := Real.sin_gt_sub_cube he
    have hc1 := Real.cos_le_one eps
    have hc2 := Real.one_sub_sq_div_two_le_cos (x := eps)
    have hcube : eps ^ 3 ≤ eps ^ 2 := by
      nlinarith [mul_nonneg (sq_nonneg eps) (by linarith : (0 : ℝ) ≤ 1 - eps)]
    have h1 : (Real.sin eps - eps) ^ 2 ≤ (eps ^ 2 / 2) ^ 2 := by
      have hp : 0 ≤ eps ^ 3 := by positivity
      rw [← sq_abs (Real.sin eps - eps)]
      have : |Real.sin eps - eps| ≤ eps ^ 2 / 2 := by
        rw [abs_le]
        constructor
        · nlinarith
        · nlinarith [sq_nonneg eps]
      gcongr
    have h2 : (Real.cos eps - 1) ^ 2 ≤ (eps ^ 2 / 2) ^ 2 := by
      rw [← sq_abs (Real.cos eps - 1)]
      have : |Real.cos eps - 1| ≤ eps ^ 2 / 2 := by
        rw [abs_le]
        constructor
        · linarith
        · nlinarith [sq_nonneg eps]
      gcongr
    rw [e, one_mul]
    refine (pow_le_pow_iff_left₀ (norm_nonneg _) (by positivity) two_ne_zero).mp ?_
    rw [e2]
    nlinarith [sq_nonneg (eps ^ 2)]
  obtain ⟨q, h1, _, _, h4⟩ := C133_retraction (sphereExp (E := E)) he x v (η := η) (a := η) (y := expo x (eps • η)) (c := 1)
    (by simp only [Mani.metOnE, sphereExp, Bool.false_eq_true, if_false, sqrt_inner]; exact hn)
    (by simp only [Mani.metOnE, sphereExp, Bool.false_eq_true, if_false]; exact hη)
    (by simp only [Mani.retr, sphereExp, Bool.false_eq_true, if_false]; exact hr)
    (by simpa only [sphereExp, id] using hbound)
  exact ⟨η, q, h1, hη1, by simpa using h4 rfl⟩

/-- The retraction of `SphereTx` near a vector that is not tiny. -/
theorem tx_curve {m : ℝ} (hm : 0 < m) (hm1 : m < 1) {x η ξ : E} (hx : ‖x‖ = 1) (hη : ⟪x, η⟫ = 0) (hξ : ⟪x, ξ⟫ = 0) (hbig : m < ‖η‖) :
    ∃ a, expDiffRetraction x η ξ = some a ∧ HasDerivAt (curve (sphereTx m) x η ξ) a 0 := by
  have hne : η ≠ 0 := by
    rw [← norm_ne_zero_iff]; linarith
  obtain ⟨a, ha, hd⟩ := C62_sphere_diff_retraction hx hη hξ hne
  refine ⟨a, ha, hd.congr_of_eventuallyEq ?_⟩
  have hcont : ContinuousAt (fun t : ℝ => ‖t • ξ + η‖) 0 := by fun_prop
  have hev : ∀ᶠ t in nhds (0 : ℝ), m < ‖t • ξ + η‖ := hcont.eventually (lt_mem_nhds (by simpa using hbig))
  filter_upwards [hev] with t ht
  have htan : ⟪x, t • ξ + η⟫ = 0 := by rw [inner_add_right, real_inner_smul_right, hξ, hη]; ring
  obtain ⟨y, hy, _, _, _, hexp⟩ := C33_guarded_retraction_unit hm hm1 hx htan
  rw [add_comm η]
  simp only [curve, Mani.retr, sphereTx, Bool.false_eq_true, if_false, hy, hexp ht.le, Option.map_some, id]

theorem proj_clm (y : E) : ∃ L : E →L[ℝ] E, ∀ u, proj y u = L u := by
  refine ⟨ContinuousLinearMap.id ℝ E - (innerSL ℝ y).smulRight y, fun u => ?_⟩
  simp only [proj, sub_apply, ContinuousLinearMap.id_apply, ContinuousLinearMap.smulRight_apply, innerSL_apply_apply]
  congr 2
  ring

/-- **C133, `SphereTx`.** With equal directions the two vectors that `CheckDiffRetraction` prints agree up to an error that vanishes with the difference step; with different directions,
where `SphereTx` falls back to the function of the base class, they differ in the limit by `(1 - sin|η| / |η|) ξ` for directions orthogonal to `η`: the test rightly fails. -/
theorem C133_tx_diff {m : ℝ} (hm : 0 < m) (hm1 : m < 1) {x : E} (hx : ‖x‖ = 1) (v w : E) (hbig : m < ‖proj x v‖) (hanti : Real.cos ‖proj x v‖ ≠ -1) :
    (∃ ζ, ∃ q : ℝ → E, (∀ eps, checkDiff (sphereTx m) eps x true v w = some (ζ, q eps)) ∧ Filter.Tendsto (fun eps => ζ - q eps) (nhdsWithin 0 {0}ᶜ) (nhds 0)) ∧
    (⟪proj x v, proj x w⟫ = 0 → ∃ ζ, ∃ q : ℝ → E, (∀ eps, checkDiff (sphereTx m) eps x false v w = some (ζ, q eps)) ∧
      Filter.Tendsto (fun eps => ζ - q eps) (nhdsWithin 0 {0}ᶜ) (nhds ((1 - Real.sin ‖proj x v‖ / ‖proj x v‖) • proj x w)) ∧
      (proj x w ≠ 0 → (1 - Real.sin ‖proj x v‖ / ‖proj x v‖) • proj x w ≠ 0)) := by
  obtain ⟨η, hη⟩ : ∃ η, proj x v = η := ⟨_, rfl⟩
  obtain ⟨ξ, hξ⟩ : ∃ ξ, proj x w = ξ := ⟨_, rfl⟩
  rw [hη] at hbig hanti ⊢
  rw [hξ]
  have ht : ⟪x, η⟫ = 0 := by rw [← hη]; exact (C33_projection hx v v).1
  have ht2 : ⟪x, ξ⟫ = 0 := by rw [← hξ]; exact (C33_projection hx w w).1
  have hpos : 0 < ‖η‖ := hm.trans hbig
  have hne : η ≠ 0 := norm_pos_iff.mp hpos
  have hr := expRetraction_eq hx ht hne
  obtain ⟨y, hy, hyn, _, _, hexp⟩ := C33_guarded_retraction_unit hm hm1 hx ht
  have hye : y = expo x η := by
    have := hexp hbig.le
    rw [hr, Option.some.injEq] at this
    exact this.symm
  have hretr : (sphereTx (E := E) m).retr x η = some y := by
    simp only [Mani.retr, sphereTx, Bool.false_eq_true, if_false, hy]
  have hdef : ∀ ξ' : E, ⟪x, ξ'⟫ = 0 → ∀ t : ℝ, ∃ z, (sphereTx (E := E) m).retr x (t • ξ' + η) = some z := by
    intro ξ' hξ' t
    have htan : ⟪x, t • ξ' + η⟫ = 0 := by rw [inner_add_right, real_inner_smul_right, hξ', ht]; ring
    obtain ⟨z, hz, _⟩ := C33_guarded_retraction_unit hm hm1 hx htan
    exact ⟨z, by simp only [Mani.retr, sphereTx, Bool.false_eq_true, if_false, hz]⟩
  obtain ⟨L, hL⟩ := proj_clm y
  constructor
  · obtain ⟨a, ha, hd⟩ := tx_curve hm hm1 hx ht ht hbig
    have hlock := C34_transport_locks hx ht hne hr hanti
    rw [← hye, ha] at hlock
    have htany : ⟪y, a⟫ = 0 := by
      have hne' : y ≠ -x := by rw [hye]; exact expo_ne_neg hx ht ⟨hne, hanti⟩
      exact C34_transport_tangent hx hyn hne' ht hlock
    obtain ⟨q, hq, hlim⟩ := C133_diff (sphereTx m) x true v w hη (ξ := η) (ζ := a) (by simp) hretr
      (by simp only [sphereTx, Bool.false_eq_true, if_false, txDiff, if_true]; exact hlock) (hdef η ht) L hL hd
    refine ⟨a, q, hq, ?_⟩
    have : (sphereTx (E := E) m).proj y a = a := (C33_projection hyn a a).2.1 htany
    rw [this] at hlim
    simpa using hlim.const_sub a
  · intro horth
    obtain ⟨a, ha, hd⟩ := tx_curve hm hm1 hx ht ht2 hbig
    have hae : a = (Real.sin ‖η‖ / ‖η‖) • ξ := by
      rw [expDiff_eq hne, Option.some.injEq] at ha
      rw [← ha, horth]; simp
    have hξy : ⟪y, ξ⟫ = 0 := by
      rw [hye]
      simp only [expo, inner_add_left, real_inner_smul_left, horth, ht2]; ring
    have hPξ : proj y ξ = ξ := (C33_projection hyn ξ ξ).2.1 hξy
    obtain ⟨q, hq, hlim⟩ := C133_diff (sphereTx m) x false v w hη (ξ := ξ) (ζ := ξ) (by simp only [Bool.false_eq_true, if_false]; exact hξ) hretr
      (by simp only [sphereTx, Bool.false_eq_true, if_false, txDiff, baseDiff, hPξ]) (hdef ξ ht2) L hL hd
    refine ⟨ξ, q, hq, ?_, ?_⟩
    · have hPa : (sphereTx (E := E) m).proj y a = (Real.sin ‖η‖ / ‖η‖) • ξ := by
        change proj y a = _
        rw [hae, (scales_sphere y).proj, hPξ]
      rw [hPa] at hlim
      have := hlim.const_sub ξ
      rwa [show ξ - (Real.sin ‖η‖ / ‖η‖) • ξ = (1 - Real.sin ‖η‖ / ‖η‖) • ξ by module] at this
    · intro hξ0
      refine smul_ne_zero ?_ hξ0
      have := Real.sin_lt hpos
      rw [sub_ne_zero]
      intro e
      rw [eq_div_iff hpos.ne'] at e
      linarith

/-- **C133, `SphereTx`**: its cotangent vectors and general differentiated retraction are those of the base class; the test of the cotangent vectors passes for every draw all the same. -/
theorem C133_tx_cotangent {m : ℝ} (hm : 0 < m) (hm1 : m < 1) {x : E} (hx : ‖x‖ = 1) (v w u : E) : Pass (checkCoTangent (sphereTx m) x v w u) := by
  have ht : ⟪x, proj x v⟫ = 0 := (C33_projection hx v v).1
  obtain ⟨y, hy, hyn, _⟩ := C33_guarded_retraction_unit hm hm1 hx ht
  obtain ⟨μ, hμ⟩ : ∃ μ : E, μ = √⟪proj y u, proj y u⟫ • proj y u := ⟨_, rfl⟩
  have e : ⟪μ, proj y (proj x w)⟫ = ⟪proj x μ, proj x w⟫ := by
    have hμt : proj y μ = μ := by rw [hμ, (scales_sphere y).proj, (C33_projection hyn u u).2.2.1]
    rw [← (C33_projection hyn μ (proj x w)).2.2.2.1, hμt, (C33_projection hx μ (proj x w)).2.2.2.1, (C33_projection hx w w).2.2.1]
  simp only [checkCoTangent, sphereTx, Bool.false_eq_true, if_false, hy, Option.bind_some, txDiff, baseDiff, baseCo, Mani.metOnE, Option.map_some]
  rw [← hμ]
  exact ⟨_, by rw [e]⟩

end Spheres

/-! ## Instances -/

example : Short (E := EuclideanSpace ℝ (Fin 2)) (proj ex ey) := by
  have : proj ex ey = ey := (C33_projection ex_norm ey ey).2.1 ex_ey
  rw [this]
  refine ⟨ey_ne, ?_⟩
  rw [ey_norm]
  have := Real.cos_one_pos
  linarith

/-- The tests at the first unit vector of the plane, with a drawn vector that has a normal part. -/
example : Pass (checkIso (sphereExp (E := EuclideanSpace ℝ (Fin 2))) ex (ex + ey) ey) := by
  have h1 : proj ex (ex + ey) = ey := by
    simp only [proj, inner_add_right, ex_ey, real_inner_self_eq_norm_sq, ex_norm]
    norm_num
  refine (C133_sphere_transport ex_norm _ _ ?_).1
  rw [h1]
  refine ⟨ey_ne, ?_⟩
  rw [ey_norm]
  have := Real.cos_one_pos
  linarith

example : ∃ η q, checkRetraction (sphereExp (E := EuclideanSpace ℝ (Fin 2))) (1 / 100000) ex ey = some (η, q) ∧ ‖η‖ = 1 ∧ ‖q - η‖ ≤ 1 / 100000 :=
  C133_sphere_retraction ex_norm (by norm_num) (by norm_num) ey (by rw [(C33_projection ex_norm ey ey).2.1 ex_ey]; exact ey_ne)

/-- A line in the plane whose tangent vectors are stored by one coordinate; the transport changes the sign. -/
def line : Mani ℝ (ℝ × ℝ) ℝ where
  intr := true
  pt x := (x, 0)
  proj _ v := (v.1, 0)
  toI _ e := e.1
  toE _ i := (i, 0)
  metE _ a b := a.1 * b.1 + a.2 * b.2
  metEI _ a b := a * b
  metI _ a b := a * b
  metIE _ a b := a.1 * b.1 + a.2 * b.2
  retrE x η := some (x + η.1)
  retrI x η := some (x + η)
  diffE _ _ _ ξ _ := some ξ
  diffI _ _ _ ξ _ := some ξ
  betaE _ _ _ := none
  betaI _ _ _ := none
  vtE _ _ _ ξ := some (-ξ)
  vtI _ _ _ ξ := some (-ξ)
  ivtE _ _ _ ξ := some (-ξ)
  ivtI _ _ _ ξ := some (-ξ)
  coE _ _ _ ξ := some ξ
  coI _ _ _ ξ := some ξ

theorem line_idem : ProjIdem line := fun _ _ => rfl

theorem line_scales (y : ℝ) : Scales (line.proj y) (line.metIE y) where
  proj c v := by simp [line]
  quad c v := by simp only [line, Prod.smul_fst, Prod.smul_snd, smul_eq_mul]; ring
  pos v h h0 := by
    simp only [line, Prod.ext_iff] at h
    have h1 : v.1 ≠ 0 := fun e => h0 (Prod.ext e h.2.symm)
    have h2 : v.2 = 0 := h.2.symm
    simp only [line, h2]
    have := mul_self_pos.mpr h1
    linarith

/-- It passes the tests of isometry (in both directions) and of the inverse, and the test of the locking condition shows the wrong sign. -/
example : (∀ v w, Pass (checkIso line 3 v w)) ∧ (∀ v w, Pass (checkCompose line 3 v w)) ∧ (∀ v w, Pass (checkInvIso line 3 v w)) ∧
    (∀ v w u, Pass (checkCoTangent line 3 v w u)) ∧ ∃ r, checkLocking line 3 (1, 5) = some r ∧ r.scaled ≠ r.vt := by
  refine ⟨fun v w => (C133_isometry_intr line line_idem rfl 3 Set.univ).mpr ?_ v w trivial, fun v w => (C133_compose_intr line line_idem rfl 3 Set.univ).mpr ?_ v w trivial,
    fun v w => (C133_inverse_isometry_intr line line_idem rfl line_scales 3 Set.univ).mpr ?_ v w trivial,
    fun v w u => (C133_cotangent_intr line line_idem rfl 3 Set.univ).mpr ?_ v w u trivial, ?_⟩
  · intro η _ ξ _ _
    exact ⟨_, rfl, _, rfl, (neg_mul_neg _ _).symm⟩
  · intro η _ ξ hξ _
    refine ⟨_, rfl, ?_⟩
    have hξ' : (ξ.1, (0 : ℝ)) = ξ := hξ
    simp [line, hξ']
  · intro η _ _
    exact ⟨_, rfl, fun ζ _ => ⟨_, rfl, (neg_mul_neg _ _).symm⟩⟩
  · intro η _ ξ _ _
    exact ⟨_, rfl, _, rfl, fun μ _ => ⟨_, rfl, rfl⟩⟩
  · obtain ⟨r, h, _, _, h2⟩ := C133_locking_intr line rfl 3 (1, 5) (y := 3 + 1) (ζ := (1 : ℝ)) (τ := (-1 : ℝ)) rfl (fun a b e => congrArg Prod.fst e) rfl rfl rfl
      (by simp [line])
    refine ⟨r, h, fun e => ?_⟩
    have := h2.mp e
    simp only [line, mul_one, div_one, Real.sqrt_one, smul_eq_mul] at this
    norm_num at this

end Verif.Check
