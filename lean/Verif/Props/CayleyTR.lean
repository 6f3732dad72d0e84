import Verif.Solver.CayleyTR
import Verif.Props.CayleySearch

/-!
# C185: limited-memory SR1 runs with the Cayley transport keep their pairs tangent and their inner products valid
-/

namespace Verif.Stiefel

open Matrix Verif.Mat

variable {n p : Type*} [Fintype n] [DecidableEq n] [Fintype p] [DecidableEq p]

/-- Specification of an inverse transport. -/
def Moved.RightInv (m : Moved n p) : Prop := m.y = cayleyRetraction m.x m.η ∧ m.r = cayleyInvTransport m.x m.η m.ξ

theorem movePairs_linked {s : CayPoint n p} {η y : Matrix n p ℝ} (h : Linked s η y) (l : List (Matrix n p ℝ × Matrix n p ℝ)) :
    ∃ ms, movePairs s η y l = some (s, l.map (Prod.map (cayleyTransport s.x η) (cayleyTransport s.x η)), ms) ∧ ∀ m ∈ ms, m.Right := by
  induction l with
  | nil => exact ⟨[], rfl, by simp⟩
  | cons a l ih =>
    obtain ⟨a, b⟩ := a
    obtain ⟨ms, e, hm⟩ := ih
    refine ⟨_, by simp only [movePairs, h.2 a, h.2 b, Option.bind_some, e, Option.map_some]; rfl, ?_⟩
    intro m hmem
    rcases List.mem_cons.mp hmem with rfl | hmem
    · exact ⟨h.1, rfl⟩
    rcases List.mem_cons.mp hmem with rfl | hmem
    · exact ⟨h.1, rfl⟩
    · exact hm m hmem

/-- The pairs an iteration has before `Acceptence`: the kept ones and the new one, whose second part is the difference of the gradients at the old point. -/
noncomputable def nextPairs (g : Matrix n p ℝ → Matrix n p ℝ) (x : Matrix n p ℝ) (l : List (Matrix n p ℝ × Matrix n p ℝ)) (it : TRIter n p) : List (Matrix n p ℝ × Matrix n p ℝ) :=
  if it.store then l.drop it.drop ++ [(it.step x, cayleyInvTransport x (it.step x) (g (cayleyRetraction x (it.step x))) - g x)] else l

/-- **C185.** An iteration has a result. The inverse transport and all transports in it are those along the step between their two points. The new iterate is the retracted point or the old one; the pairs are
moved to an accepted point by one and the same transport, and not at all otherwise. -/
theorem C185_iteration (g : Matrix n p ℝ → Matrix n p ℝ) (s : TRPts n p) (it : TRIter n p) :
    ∃ s' is ms, trIter g s it = some (s', is, ms) ∧ (∀ m ∈ is, m.RightInv) ∧ (∀ m ∈ ms, m.Right) ∧
      (it.accept = true → s'.x1.x = cayleyRetraction s.x1.x (it.step s.x1.x) ∧
        s'.pairs = (nextPairs g s.x1.x s.pairs it).map (Prod.map (cayleyTransport s.x1.x (it.step s.x1.x)) (cayleyTransport s.x1.x (it.step s.x1.x)))) ∧
      (it.accept = false → s'.x1.x = s.x1.x ∧ s'.pairs = nextPairs g s.x1.x s.pairs it) := by
  obtain ⟨r, hr⟩ : ∃ r, cayStep s.x1 (.retract (it.step s.x1.x)) = some r := ⟨_, rfl⟩
  have hrun : cayRun s.x1 ([] ++ .retract (it.step s.x1.x) :: []) = some r.1 := by simp [cayRun, hr]
  have hx : r.1.x = s.x1.x ∧ r.2 = cayleyRetraction s.x1.x (it.step s.x1.x) := by
    simp only [cayStep, Option.some.injEq] at hr
    rw [← hr]
    exact ⟨rfl, rfl⟩
  have hl : Linked r.1 (it.step s.x1.x) r.2 :=
    ⟨by rw [hx.1]; exact hx.2, fun ξ => (C181_last_step [] [] _ (by simp) hrun _ ξ).1⟩
  have hi := (C181_last_step [] [] _ (by simp) hrun (it.step s.x1.x) (g r.2)).2.1
  have hp : (if it.store then s.pairs.drop it.drop ++ [(it.step s.x1.x, cayleyInvTransport r.1.x (it.step s.x1.x) (g r.2) - g s.x1.x)] else s.pairs) = nextPairs g s.x1.x s.pairs it := by
    rw [nextPairs, hx.1, hx.2]
  obtain ⟨ms, hm, hmr⟩ := movePairs_linked hl (nextPairs g s.x1.x s.pairs it)
  rw [hx.1] at hm
  obtain ⟨y, hy, hyx⟩ := retracts_some (⟨r.2, none⟩ : CayPoint n p) it.stop
  have hinv : ∀ m ∈ [(⟨s.x1.x, it.step s.x1.x, r.2, g r.2, cayleyInvTransport r.1.x (it.step s.x1.x) (g r.2)⟩ : Moved n p)], m.RightInv := by
    intro m hmem
    rw [List.mem_singleton] at hmem
    subst hmem
    exact ⟨hx.2, by simp only [hx.1]⟩
  by_cases ha : it.accept = true
  · refine ⟨⟨y, r.1, (nextPairs g s.x1.x s.pairs it).map (Prod.map (cayleyTransport s.x1.x (it.step s.x1.x)) (cayleyTransport s.x1.x (it.step s.x1.x)))⟩, _, ms, ?_, hinv, hmr, fun _ => ⟨?_, ?_⟩, fun h => by rw [ha] at h; cases h⟩
    rotate_left
    · simp only [hyx, hx.2]
    · rfl
    · simp only [trIter, hr, hi, hp, ha, hm, hy, Option.bind_some, Option.map_some, if_true]
  · refine ⟨⟨r.1, ⟨r.2, none⟩, nextPairs g s.x1.x s.pairs it⟩, _, [], ?_, hinv, by simp, fun h => absurd h ha, fun _ => ⟨?_, ?_⟩⟩
    rotate_left
    · exact hx.1
    · rfl
    · simp only [trIter, hr, hi, hp, ha, Option.bind_some, Bool.false_eq_true, if_false]

/-- **C185.** A run of any length has a result, and every inverse transport and transport in it is the right one. -/
theorem C185_run (g : Matrix n p ℝ → Matrix n p ℝ) (s : TRPts n p) (its : List (TRIter n p)) :
    ∃ s' is ms, trCayRun g s its = some (s', is, ms) ∧ is.length = its.length ∧
      (∀ m ∈ is, m.y = cayleyRetraction m.x m.η ∧ m.r = cayleyInvTransport m.x m.η m.ξ) ∧ (∀ m ∈ ms, m.y = cayleyRetraction m.x m.η ∧ m.r = cayleyTransport m.x m.η m.ξ) := by
  induction its generalizing s with
  | nil => exact ⟨s, [], [], rfl, rfl, by simp, by simp⟩
  | cons it its ih =>
    obtain ⟨s1, i1, m1, e1, h1, h1', -, -⟩ := C185_iteration g s it
    obtain ⟨s2, i2, m2, e2, hl, h2, h2'⟩ := ih s1
    refine ⟨s2, i1 ++ i2, m1 ++ m2, ?_, ?_, ?_, ?_⟩
    · simp only [trCayRun, e1, Option.bind_some, e2, Option.map_some]
    · have : i1.length = 1 := by
        simp only [trIter, Option.bind_eq_some_iff] at e1
        obtain ⟨r, _, q, _, e1⟩ := e1
        split at e1
        · simp only [Option.bind_eq_some_iff, Option.map_eq_some_iff] at e1
          obtain ⟨_, _, _, _, e1⟩ := e1
          cases e1; rfl
        · cases e1; rfl
      rw [List.length_append, this, hl, List.length_cons, Nat.add_comm]
    · intro m hm
      rcases List.mem_append.mp hm with hm | hm
      · exact h1 m hm
      · exact h2 m hm
    · intro m hm
      rcases List.mem_append.mp hm with hm | hm
      · exact h1' m hm
      · exact h2' m hm

theorem invTransport_tangent {x η ξ : Matrix n p ℝ} (hx : xᵀ * x = 1) (hη : IsTangent x η) (hξ : IsTangent (cayleyRetraction x η) ξ) : IsTangent x (cayleyInvTransport x η ξ) := by
  unfold IsTangent at hξ ⊢
  rw [cayley_eq hx hη] at hξ
  rw [cayleyInvTransport_eq, ← Matrix.mul_assoc, ← transpose_mul]
  exact hξ

omit [DecidableEq n] [Fintype p] [DecidableEq p] in
theorem sub_tangent {x a b : Matrix n p ℝ} (ha : IsTangent x a) (hb : IsTangent x b) : IsTangent x (a - b) := by
  unfold IsTangent at *
  rw [Matrix.mul_sub, transpose_sub, ha, hb]
  abel

/-- The iterate has orthonormal columns and all stored vectors are tangent there. -/
def TRPts.Good (s : TRPts n p) : Prop := s.x1.xᵀ * s.x1.x = 1 ∧ ∀ q ∈ s.pairs, IsTangent s.x1.x q.1 ∧ IsTangent s.x1.x q.2

/-- Trial steps and gradients are tangent vectors. -/
def TangentField (v : Matrix n p ℝ → Matrix n p ℝ) : Prop := ∀ x : Matrix n p ℝ, xᵀ * x = 1 → IsTangent x (v x)

theorem nextPairs_tangent {g : Matrix n p ℝ → Matrix n p ℝ} (hg : TangentField g) {s : TRPts n p} (hs : s.Good) {it : TRIter n p} (ht : TangentField it.step) :
    ∀ q ∈ nextPairs g s.x1.x s.pairs it, IsTangent s.x1.x q.1 ∧ IsTangent s.x1.x q.2 := by
  intro q hq
  unfold nextPairs at hq
  split at hq
  · rcases List.mem_append.mp hq with hq | hq
    · exact hs.2 q (List.mem_of_mem_drop hq)
    · rw [List.mem_singleton] at hq
      subst hq
      have hη := ht _ hs.1
      exact ⟨hη, sub_tangent (invTransport_tangent hs.1 hη (hg _ (C36_cayley_retraction hs.1 hη).1)) (hg _ hs.1)⟩
  · exact hs.2 q hq

/-- **C185.** Every run keeps its iterates orthonormal and all stored vectors tangent at the current iterate. -/
theorem C185_tangent (g : Matrix n p ℝ → Matrix n p ℝ) (hg : TangentField g) (its : List (TRIter n p)) (hits : ∀ it ∈ its, TangentField it.step) (s s' : TRPts n p) (is ms : List (Moved n p)) (hs : s.Good)
    (h : trCayRun g s its = some (s', is, ms)) : s'.x1.xᵀ * s'.x1.x = 1 ∧ ∀ q ∈ s'.pairs, IsTangent s'.x1.x q.1 ∧ IsTangent s'.x1.x q.2 := by
  induction its generalizing s is ms with
  | nil =>
    simp only [trCayRun, Option.some.injEq] at h
    cases h; exact hs
  | cons it its ih =>
    obtain ⟨s1, i1, m1, e1, -, -, ha, hr⟩ := C185_iteration g s it
    simp only [trCayRun, e1, Option.bind_some, Option.map_eq_some_iff] at h
    obtain ⟨q, hq, e⟩ := h
    have ht := hits it List.mem_cons_self
    have hn := nextPairs_tangent hg hs ht
    have hη := ht _ hs.1
    have h1 : s1.Good := by
      cases hacc : it.accept with
      | true =>
        obtain ⟨hx, hp⟩ := ha hacc
        refine ⟨by rw [hx]; exact (C36_cayley_retraction hs.1 hη).1, fun q hq => ?_⟩
        rw [hp, List.mem_map] at hq
        obtain ⟨w, hw, rfl⟩ := hq
        rw [hx]
        exact ⟨(C46_cayley_transport hs.1 hη w.1 w.1).2.1 (hn w hw).1, (C46_cayley_transport hs.1 hη w.2 w.2).2.1 (hn w hw).2⟩
      | false =>
        obtain ⟨hx, hp⟩ := hr hacc
        exact ⟨by rw [hx]; exact hs.1, fun q hq => by rw [hx]; rw [hp] at hq; exact hn q hq⟩
    obtain ⟨q1, q2, q3⟩ := q
    cases e
    exact ih (fun it h => hits it (List.mem_cons_of_mem _ h)) s1 q2 q3 h1 hq

/-- **C185.** `Acceptence` changes no inner product of two stored vectors: the matrices of inner products, computed when a pair was stored and not updated, stay those of the stored vectors. -/
theorem C185_inner_products (g : Matrix n p ℝ → Matrix n p ℝ) (s s' : TRPts n p) (is ms : List (Moved n p)) (hs : s.Good) (it : TRIter n p) (ht : TangentField it.step)
    (h : trIter g s it = some (s', is, ms)) (i j : Nat) (a b : Matrix n p ℝ × Matrix n p ℝ) (hi : (nextPairs g s.x1.x s.pairs it)[i]? = some a) (hj : (nextPairs g s.x1.x s.pairs it)[j]? = some b) :
    ∃ a' b', s'.pairs[i]? = some a' ∧ s'.pairs[j]? = some b' ∧ frob a'.1 b'.1 = frob a.1 b.1 ∧ frob a'.1 b'.2 = frob a.1 b.2 ∧ frob a'.2 b'.2 = frob a.2 b.2 := by
  obtain ⟨s1, i1, m1, e1, -, -, ha, hr⟩ := C185_iteration g s it
  rw [h] at e1
  cases e1
  have hη := ht _ hs.1
  cases hacc : it.accept with
  | true =>
    obtain ⟨-, hp⟩ := ha hacc
    refine ⟨_, _, by rw [hp, List.getElem?_map, hi]; rfl, by rw [hp, List.getElem?_map, hj]; rfl, ?_, ?_, ?_⟩
    · exact (C46_cayley_transport hs.1 hη a.1 b.1).1
    · exact (C46_cayley_transport hs.1 hη a.1 b.2).1
    · exact (C46_cayley_transport hs.1 hη a.2 b.2).1
  | false =>
    obtain ⟨-, hp⟩ := hr hacc
    exact ⟨a, b, by rw [hp]; exact hi, by rw [hp]; exact hj, rfl, rfl, rfl⟩

/-- A tangent field on the circle that is not zero. -/
noncomputable def turn (x : Matrix (Fin 2) (Fin 1) ℝ) : Matrix (Fin 2) (Fin 1) ℝ := (!![0, -1; 1, 0] : Matrix (Fin 2) (Fin 2) ℝ) * x

theorem turn_tangent : TangentField turn := by
  intro x _
  unfold IsTangent turn
  ext i j
  fin_cases i; fin_cases j
  simp [Matrix.mul_apply, Fin.sum_univ_two, Matrix.vecMul, dotProduct]
  ring

/-- An accepted, a rejected and another accepted step from a point of the circle, each storing its pair, with a memory of two: three inverse transports, and the hypotheses hold. -/
example : TangentField turn ∧ (⟨⟨exX, none⟩, ⟨exX, none⟩, []⟩ : TRPts (Fin 2) (Fin 1)).Good ∧
    ∃ s is ms, trCayRun turn (⟨⟨exX, none⟩, ⟨exX, none⟩, []⟩ : TRPts (Fin 2) (Fin 1))
      [⟨turn, true, 0, true, []⟩, ⟨turn, true, 0, false, []⟩, ⟨turn, true, 1, true, [exEta]⟩] = some (s, is, ms) ∧ is.length = 3 := by
  refine ⟨turn_tangent, ⟨exX_orth, by simp⟩, ?_⟩
  obtain ⟨s, is, ms, e, h, -⟩ := C185_run turn (⟨⟨exX, none⟩, ⟨exX, none⟩, []⟩ : TRPts (Fin 2) (Fin 1)) [⟨turn, true, 0, true, []⟩, ⟨turn, true, 0, false, []⟩, ⟨turn, true, 1, true, [exEta]⟩]
  exact ⟨s, is, ms, e, h⟩

end Verif.Stiefel
