import Verif.Manifold.CayleyCache
import Verif.Props.Stiefel

/-!
# C181: the Cayley transports move along the last step retracted from the point, whatever step they are given
-/

namespace Verif.Stiefel

open Matrix Verif.Mat

variable {n p : Type*} [Fintype n] [DecidableEq n] [Fintype p] [DecidableEq p]

/-- A call that neither retracts from the point nor writes to it. -/
def CayCall.Reads : CayCall n p → Prop
  | .retract _ => False
  | .write _ => False
  | _ => True

theorem cayRun_append (s : CayPoint n p) (cs ds : List (CayCall n p)) : cayRun s (cs ++ ds) = (cayRun s cs).bind fun t => cayRun t ds := by
  induction cs generalizing s with
  | nil => rfl
  | cons c cs ih =>
    simp only [List.cons_append, cayRun]
    cases cayStep s c with
    | none => rfl
    | some r => simp only [Option.bind_some]; exact ih r.1

theorem cayStep_reads {s : CayPoint n p} {c : CayCall n p} {r : CayPoint n p × Matrix n p ℝ} (hc : c.Reads) (h : cayStep s c = some r) : r.1 = s := by
  cases c with
  | retract η => exact hc.elim
  | write x => exact hc.elim
  | transport η ξ | invTransport η ξ | diff η ξ =>
    simp only [cayStep, Option.map_eq_some_iff] at h
    obtain ⟨_, _, rfl⟩ := h
    rfl

theorem cayRun_reads {cs : List (CayCall n p)} (hc : ∀ c ∈ cs, c.Reads) {s t : CayPoint n p} (h : cayRun s cs = some t) : t = s := by
  induction cs generalizing s with
  | nil => simpa [cayRun] using h.symm
  | cons c cs ih =>
    simp only [cayRun, Option.bind_eq_some_iff] at h
    obtain ⟨r, hr, h⟩ := h
    have := ih (fun c' h' => hc c' (List.mem_cons_of_mem _ h')) h
    rw [this, cayStep_reads (hc c List.mem_cons_self) hr]

/-- Fields left by the retraction along `η`. -/
theorem cayStep_results (x η η' ξ : Matrix n p ℝ) (y : CayPoint n p) (z : Matrix n p ℝ) (h : cayStep ⟨x, y.fields⟩ (.retract η) = some (y, z)) :
    y.x = x ∧ z = cayleyRetraction x η ∧ cayStep y (.transport η' ξ) = some (y, cayleyTransport x η ξ) ∧
    cayStep y (.invTransport η' ξ) = some (y, cayleyInvTransport x η ξ) ∧ cayStep y (.diff η ξ) = some (y, diffCayley x η ξ) := by
  simp only [cayStep, Option.some.injEq, Prod.mk.injEq] at h
  obtain ⟨rfl, rfl⟩ := h
  refine ⟨rfl, rfl, ?_, ?_, ?_⟩
  · simp [cayStep, CayCache.V, cayleyTransport, cayV, cayU]
  · simp [cayStep, CayCache.V, cayleyInvTransport, cayV, cayU]
  · have e : (mk2 x η).toCols₂ = fromRows 1 (-((1 / 2 : ℝ) • (xᵀ * η))ᵀ) := by
      ext i j
      cases i <;> rfl
    simp only [cayStep, Option.map_some, e, diffCayley]

/-- **C181.** After any calls on the point, let the last one that retracted from it, or wrote to it, be a retraction along `η`. Then the transport and the inverse transport are those along
`η`, whatever step `η'` they are given, and the derivative in the direction of `η` is the right one. -/
theorem C181_last_step {s t : CayPoint n p} (before after : List (CayCall n p)) (η : Matrix n p ℝ) (hafter : ∀ c ∈ after, c.Reads)
    (h : cayRun s (before ++ .retract η :: after) = some t) (η' ξ : Matrix n p ℝ) :
    cayStep t (.transport η' ξ) = some (t, cayleyTransport t.x η ξ) ∧
    cayStep t (.invTransport η' ξ) = some (t, cayleyInvTransport t.x η ξ) ∧
    cayStep t (.diff η ξ) = some (t, diffCayley t.x η ξ) := by
  rw [cayRun_append, Option.bind_eq_some_iff] at h
  obtain ⟨u, _, h⟩ := h
  simp only [cayRun, Option.bind_eq_some_iff] at h
  obtain ⟨r, hr, h⟩ := h
  have ht := cayRun_reads hafter h
  subst ht
  have hr' : cayStep ⟨u.x, r.1.fields⟩ (.retract η) = some (r.1, r.2) := hr
  obtain ⟨hx, _, h1, h2, h3⟩ := cayStep_results u.x η η' ξ r.1 r.2 hr'
  rw [hx]
  exact ⟨h1, h2, h3⟩

/-- **C181.** If the step given is the one last retracted, the transport preserves inner products, takes tangent vectors at the point to tangent vectors at the point reached, and the inverse
transport takes the result back. -/
theorem C181_same_step {s t : CayPoint n p} (before after : List (CayCall n p)) (η : Matrix n p ℝ) (hafter : ∀ c ∈ after, c.Reads)
    (h : cayRun s (before ++ .retract η :: after) = some t) (hx : t.xᵀ * t.x = 1) (hη : IsTangent t.x η) (ξ ζ : Matrix n p ℝ) :
    ∃ a b, cayStep t (.transport η ξ) = some (t, a) ∧ cayStep t (.transport η ζ) = some (t, b) ∧ frob a b = frob ξ ζ ∧
      (IsTangent t.x ξ → IsTangent (cayleyRetraction t.x η) a) ∧ cayStep t (.invTransport η a) = some (t, ξ) := by
  have h4 := C46_cayley_transport hx hη ξ ζ
  refine ⟨_, _, (C181_last_step before after η hafter h η ξ).1, (C181_last_step before after η hafter h η ζ).1, h4.1, h4.2.1, ?_⟩
  rw [(C181_last_step before after η hafter h η _).2.1, h4.2.2.1]

/-- **C181.** On a point without fields, or written to since the last retraction, the transports do not find what they need: no sequence of them has a result. -/
theorem C181_missing (s : CayPoint n p) (before : List (CayCall n p)) (x η ξ : Matrix n p ℝ) (after : List (CayCall n p)) (hafter : ∀ c ∈ after, c.Reads) (h0 : after ≠ []) :
    cayRun s (before ++ .write x :: after) = none ∧ (s.fields = none → cayRun s after = none) ∧
    (s.fields = none → cayStep s (.transport η ξ) = none ∧ cayStep s (.invTransport η ξ) = none ∧ cayStep s (.diff η ξ) = none) := by
  have key : ∀ u : CayPoint n p, u.fields = none → cayRun u after = none := by
    intro u hu
    cases after with
    | nil => exact absurd rfl h0
    | cons c cs =>
      have hc := hafter c List.mem_cons_self
      cases c with
      | retract η => exact hc.elim
      | write x => exact hc.elim
      | transport η ξ | invTransport η ξ | diff η ξ => simp [cayRun, cayStep, hu]
  refine ⟨?_, key s, fun hs => by simp [cayStep, hs]⟩
  rw [cayRun_append]
  cases cayRun s before with
  | none => rfl
  | some u =>
    simp only [Option.bind_some, cayRun, cayStep]
    exact key _ rfl

theorem cayleyTransport_zero {x : Matrix n p ℝ} (hx : xᵀ * x = 1) (ξ : Matrix n p ℝ) : cayleyTransport x 0 ξ = ξ := by
  have h0 : IsTangent x (0 : Matrix n p ℝ) := by simp [IsTangent]
  have hT := cayT_mul hx h0
  have hW : cayW x 0 = 0 := by rw [cayW_eq]; simp
  rw [hW, smul_zero, sub_zero, Matrix.one_mul, add_zero] at hT
  rw [cayleyTransport_eq, hT, Matrix.one_mul]

/-- **C181, negation for other steps.** Retract along `η`, then along `0`, then transport along `η`: every vector is returned unchanged, at every point. On the circle the result is then not a
tangent vector at the point reached by `η`. -/
theorem C181_other_step_fails :
    (∀ (x η ξ : Matrix n p ℝ), xᵀ * x = 1 → ∃ t, cayRun ⟨x, none⟩ [.retract η, .retract 0] = some t ∧ cayStep t (.transport η ξ) = some (t, ξ)) ∧
    ∃ x η ξ : Matrix (Fin 2) (Fin 1) ℝ, xᵀ * x = 1 ∧ IsTangent x η ∧ IsTangent x ξ ∧ ¬ IsTangent (cayleyRetraction x η) ξ := by
  refine ⟨fun x η ξ hx => ?_, exX, exEta, exEta, exX_orth, exEta_tangent, exEta_tangent, fun h => ?_⟩
  · obtain ⟨t, ht⟩ : ∃ t, cayRun ⟨x, none⟩ [.retract η, .retract 0] = some t := ⟨_, rfl⟩
    refine ⟨t, ht, ?_⟩
    have hxt : t.x = x := by
      simp only [cayRun, cayStep, Option.bind_some, Option.some.injEq] at ht
      rw [← ht]
    have h1 := (C181_last_step (s := ⟨x, none⟩) [.retract η] [] 0 (by simp) ht η ξ).1
    rw [h1, hxt, cayleyTransport_zero hx]
  · have h1 := (C36_cayley_retraction exX_orth exEta_tangent).2.1
    have e : exXᵀ * exEta = 0 := by
      ext i j; fin_cases i; fin_cases j; simp [exX, exEta, Matrix.mul_apply, Fin.sum_univ_two]
    rw [e, smul_zero, Matrix.mul_zero, sub_zero] at h1
    generalize cayleyRetraction exX exEta = y at h h1
    have ha := congrFun (congrFun h1 0) 0
    have hb := congrFun (congrFun h1 1) 0
    have hc := congrFun (congrFun h 0) 0
    simp only [Matrix.smul_apply, Matrix.mul_apply, Matrix.sub_apply, Matrix.add_apply, Matrix.neg_apply, transpose_apply, Fin.sum_univ_two, smul_eq_mul,
      Fin.sum_univ_one, exX, exEta, Matrix.of_apply, Matrix.cons_val', Matrix.cons_val_zero, Matrix.cons_val_one] at ha hb hc
    norm_num at ha hb hc
    linarith

/-- A sequence as in `C181_last_step`, with a retraction and a transport before and a derivative after. -/
example : ∃ t, cayRun ⟨exX, none⟩ ([.retract 0, .transport 0 exEta] ++ .retract exEta :: [.diff exEta exEta]) = some t ∧ t.xᵀ * t.x = 1 ∧ IsTangent t.x exEta :=
  ⟨_, rfl, exX_orth, exEta_tangent⟩

end Verif.Stiefel
