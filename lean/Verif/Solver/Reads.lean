import Verif.Solver.ObjectSearch
import Verif.Solver.ObjectTR
import Mathlib.Tactic.Common
import Mathlib.Tactic.SplitIfs

/-!
# Which values of the problem and the retraction a run consults

A pure function has no trace of calls, but what a run consults can be said without one: a list of questions suffices if the outcome is the same for all problems giving the same answers to them. Here the lists are built alongside
each function of the model, one entry per increment of the matching counter.
-/

namespace Verif.Obj

variable {K X E M : Type*} [Add K] [Sub K] [Mul K] [Div K] [Neg K]

/-- What the user supplies or the manifold computes at the points of the run: function, gradient, retraction, action of the Hessian. -/
structure Calls (K X E : Type*) where
  f : X → K
  grad : X → E
  retr : X → E → X
  hess : X → E → E

/-- The same solver environment with other answers. -/
def Env.withCalls (env : Env K X E) (c : Calls K X E) : Env K X E := { env with f := c.f, grad := c.grad, retr := c.retr }

/-- A question: `step x v` is the retraction of `v` at `x` followed by the function at the new point, `grad x` the gradient at `x`, `hess x v` the Hessian at `x` along `v`. -/
inductive Ask (X E : Type*)
  | step (x : X) (v : E)
  | grad (x : X)
  | hess (x : X) (v : E)

/-- `c` answers the question as `c0` does. -/
def Ask.Same (c0 c : Calls K X E) : Ask X E → Prop
  | .step x v => c.retr x v = c0.retr x v ∧ c.f (c0.retr x v) = c0.f (c0.retr x v)
  | .grad x => c.grad x = c0.grad x
  | .hess x v => c.hess x v = c0.hess x v

/-- `c` answers all questions as `c0` does. -/
def Agree (c0 c : Calls K X E) (q : List (Ask X E)) : Prop := ∀ a ∈ q, a.Same c0 c

/-- Order of the questions: the gradient is asked only at the point the function was asked at last (`l`), the Hessian only at points at which the gradient has been asked (`S`). -/
def Legal (c0 : Calls K X E) : List X → X → List (Ask X E) → Prop
  | _, _, [] => True
  | S, _, .step x v :: q => Legal c0 S (c0.retr x v) q
  | S, l, .grad x :: q => x = l ∧ Legal c0 (x :: S) l q
  | S, l, .hess x _ :: q => x ∈ S ∧ Legal c0 S l q

/-- The point the function was asked at last. -/
def lastPt (c0 : Calls K X E) : X → List (Ask X E) → X
  | l, [] => l
  | _, .step x v :: q => lastPt c0 (c0.retr x v) q
  | l, .grad _ :: q => lastPt c0 l q
  | l, .hess _ _ :: q => lastPt c0 l q

/-- The points at which the gradient has been asked. -/
def known : List X → List (Ask X E) → List X
  | S, [] => S
  | S, .step _ _ :: q => known S q
  | S, .grad x :: q => known (x :: S) q
  | S, .hess _ _ :: q => known S q

/-- Numbers of questions of each kind. -/
def steps (q : List (Ask X E)) : Nat := q.countP fun a => match a with | .step _ _ => true | _ => false
def grads (q : List (Ask X E)) : Nat := q.countP fun a => match a with | .grad _ => true | _ => false
def hesss (q : List (Ask X E)) : Nat := q.countP fun a => match a with | .hess _ _ => true | _ => false

/-- Counters of function evaluations, gradients, retractions and Hessian actions, and the candidate, in an object. -/
structure Mark (X : Type*) where
  nf : Nat
  ng : Nat
  nR : Nat
  nH : Nat
  pt : X

/-- One question per increment of the counters between `a` and `b`. -/
structure Fits (q : List (Ask X E)) (a b : Mark X) : Prop where
  nf : b.nf = a.nf + steps q
  ng : b.ng = a.ng + grads q
  nR : b.nR = a.nR + steps q
  nH : b.nH = a.nH + hesss q

/-- The value of `F` depends on answers to as many questions as the counters in it have advanced from `a`, asked in the order `Legal`; `P` relates the value to the last question and the known gradients. -/
def Reads {α : Type*} (get : α → Option (Mark X)) (P : α → List X → X → Prop) (c0 : Calls K X E) (a : Mark X) (S : List X) (l : X) (F : Calls K X E → α) : Prop :=
  ∃ q : List (Ask X E), Legal c0 S l q ∧ (∀ m, get (F c0) = some m → Fits q a m ∧ P (F c0) (known S q) (lastPt c0 l q)) ∧ ∀ c, Agree c0 c q → F c = F c0

theorem legal_append {c0 : Calls K X E} (q r : List (Ask X E)) : ∀ S l, Legal c0 S l q → Legal c0 (known S q) (lastPt c0 l q) r → Legal c0 S l (q ++ r) := by
  induction q with
  | nil => intro S l _ h; exact h
  | cons a q ih =>
    intro S l h h'
    cases a with
    | step x v => exact ih _ _ h h'
    | grad x => exact ⟨h.1, ih _ _ h.2 h'⟩
    | hess x v => exact ⟨h.1, ih _ _ h.2 h'⟩

theorem lastPt_append {c0 : Calls K X E} (q r : List (Ask X E)) : ∀ l, lastPt c0 l (q ++ r) = lastPt c0 (lastPt c0 l q) r := by
  induction q with
  | nil => intro l; rfl
  | cons a q ih => intro l; cases a <;> exact ih _

theorem known_append (q r : List (Ask X E)) : ∀ S, known S (q ++ r) = known (known S q) r := by
  induction q with
  | nil => intro l; rfl
  | cons a q ih => intro l; cases a <;> exact ih _

theorem known_mono (q : List (Ask X E)) : ∀ S, ∀ x ∈ S, x ∈ known S q := by
  induction q with
  | nil => intro S x h; exact h
  | cons a q ih =>
    intro S x h
    cases a with
    | step => exact ih _ _ h
    | grad y => exact ih _ _ (List.mem_cons_of_mem _ h)
    | hess => exact ih _ _ h

section combinators

variable {α β : Type*} {get : α → Option (Mark X)} {get' : β → Option (Mark X)} {P : α → List X → X → Prop} {P' : β → List X → X → Prop} {c0 : Calls K X E} {a : Mark X} {S : List X} {l : X}

theorem Reads.const (r : α) (hr : ∀ m, get r = some m → (m.nf = a.nf ∧ m.ng = a.ng ∧ m.nR = a.nR ∧ m.nH = a.nH) ∧ P r S l) : Reads get P c0 a S l fun _ => r :=
  ⟨[], trivial, fun m hm => ⟨⟨(hr m hm).1.1, (hr m hm).1.2.1, (hr m hm).1.2.2.1, (hr m hm).1.2.2.2⟩, (hr m hm).2⟩, fun _ _ => rfl⟩

theorem Reads.ite {F G : Calls K X E → α} (b : Bool) (hF : b = true → Reads get P c0 a S l F) (hG : b = false → Reads get P c0 a S l G) : Reads get P c0 a S l fun c => if b = true then F c else G c := by
  cases b with
  | true => simpa using hF rfl
  | false => simpa using hG rfl

/-- A retraction and the function at the new point. -/
theorem Reads.step {T : Type*} {k : Calls K X E → T → α} {G : Calls K X E → T} (x : X) (v : E)
    (hG : ∀ c, c.retr x v = c0.retr x v → c.f (c0.retr x v) = c0.f (c0.retr x v) → G c = G c0)
    (hk : Reads get P c0 ⟨a.nf + 1, a.ng, a.nR + 1, a.nH, a.pt⟩ S (c0.retr x v) fun c => k c (G c0)) : Reads get P c0 a S l fun c => k c (G c) := by
  obtain ⟨q, q0, q1, q2⟩ := hk
  refine ⟨.step x v :: q, q0, ?_, ?_⟩
  · intro m hm
    obtain ⟨⟨u, v, w, z⟩, w'⟩ := q1 m hm
    refine ⟨⟨?_, v, ?_, z⟩, w'⟩
    · rw [u, steps, steps, List.countP_cons]; simp only [ite_true]; omega
    · rw [w, steps, steps, List.countP_cons]; simp only [ite_true]; omega
  · intro c hc
    obtain ⟨e1, e2⟩ := hc _ (List.mem_cons_self ..)
    show k c (G c) = _
    rw [hG c e1 e2]
    exact q2 c fun x hx => hc x (List.mem_cons_of_mem _ hx)

/-- The gradient at the point the function was asked at last. -/
theorem Reads.grad {T : Type*} {k : Calls K X E → T → α} {G : Calls K X E → T} (x : X) (hG : ∀ c, c.grad x = c0.grad x → G c = G c0) (hx : x = l)
    (hk : Reads get P c0 ⟨a.nf, a.ng + 1, a.nR, a.nH, a.pt⟩ (x :: S) l fun c => k c (G c0)) : Reads get P c0 a S l fun c => k c (G c) := by
  obtain ⟨q, q0, q1, q2⟩ := hk
  refine ⟨.grad x :: q, ⟨hx, q0⟩, ?_, ?_⟩
  · intro m hm
    obtain ⟨⟨u, v, w, z⟩, w'⟩ := q1 m hm
    refine ⟨⟨u, ?_, w, z⟩, w'⟩
    rw [v, grads, grads, List.countP_cons]; simp only [ite_true]; omega
  · intro c hc
    show k c (G c) = _
    rw [hG c (hc _ (List.mem_cons_self ..))]
    exact q2 c fun x hx => hc x (List.mem_cons_of_mem _ hx)

/-- The Hessian at a point with known gradient. -/
theorem Reads.hess {T : Type*} {k : Calls K X E → T → α} {G : Calls K X E → T} (x : X) (v : E) (hG : ∀ c, c.hess x v = c0.hess x v → G c = G c0) (hx : x ∈ S)
    (hk : Reads get P c0 ⟨a.nf, a.ng, a.nR, a.nH + 1, a.pt⟩ S l fun c => k c (G c0)) : Reads get P c0 a S l fun c => k c (G c) := by
  obtain ⟨q, q0, q1, q2⟩ := hk
  refine ⟨.hess x v :: q, ⟨hx, q0⟩, ?_, ?_⟩
  · intro m hm
    obtain ⟨⟨u, v, w, z⟩, w'⟩ := q1 m hm
    refine ⟨⟨u, v, w, ?_⟩, w'⟩
    rw [z, hesss, hesss, List.countP_cons]; simp only [ite_true]; omega
  · intro c hc
    show k c (G c) = _
    rw [hG c (hc _ (List.mem_cons_self ..))]
    exact q2 c fun x hx => hc x (List.mem_cons_of_mem _ hx)

/-- Sequential composition; the second part is only looked at if the first yields an object. -/
theorem Reads.bind {F : Calls K X E → α} {G : Calls K X E → α → β} (hF : Reads get P c0 a S l F)
    (hs : ∀ m S' l', get (F c0) = some m → (∀ x ∈ S, x ∈ S') → P (F c0) S' l' → Reads get' P' c0 m S' l' fun c => G c (F c0))
    (hn : get (F c0) = none → ∀ c, G c (F c0) = G c0 (F c0) ∧ get' (G c (F c0)) = none) : Reads get' P' c0 a S l fun c => G c (F c) := by
  obtain ⟨q, q0, q1, q2⟩ := hF
  cases hg : get (F c0) with
  | none =>
    refine ⟨q, q0, ?_, ?_⟩
    · intro o ho
      rw [(hn hg c0).2] at ho
      exact absurd ho (by simp)
    · intro c hc
      show G c (F c) = _
      rw [q2 c hc]
      exact (hn hg c).1
  | some p =>
    obtain ⟨⟨u, v, w, z⟩, hp⟩ := q1 p hg
    obtain ⟨r, r0, r1, r2⟩ := hs p _ _ hg (known_mono q S) hp
    refine ⟨q ++ r, legal_append q r S l q0 r0, ?_, ?_⟩
    · intro o ho
      obtain ⟨⟨u', v', w', z'⟩, hp'⟩ := r1 o ho
      rw [known_append, lastPt_append]
      refine ⟨⟨?_, ?_, ?_, ?_⟩, hp'⟩
      · rw [u', u, steps, steps, steps, List.countP_append]; omega
      · rw [v', v, grads, grads, grads, List.countP_append]; omega
      · rw [w', w, steps, steps, steps, List.countP_append]; omega
      · rw [z', z, hesss, hesss, hesss, List.countP_append]; omega
    · intro c hc
      show G c (F c) = _
      rw [q2 c fun x hx => hc x (List.mem_append_left _ hx)]
      exact r2 c fun x hx => hc x (List.mem_append_right _ hx)

/-- The postcondition may be weakened. -/
theorem Reads.weaken {Q : α → List X → X → Prop} {F : Calls K X E → α} (hF : Reads get P c0 a S l F) (h : ∀ v S l, P v S l → Q v S l) : Reads get Q c0 a S l F := by
  obtain ⟨q, q0, q1, q2⟩ := hF
  exact ⟨q, q0, fun m hm => ⟨(q1 m hm).1, h _ _ _ (q1 m hm).2⟩, q2⟩

end combinators

/-! ## Line-search solvers -/

/-- The counters and the candidate of a line-search object (no Hessian is used). -/
def obs (o : Obj K X E M) : Mark X := ⟨o.cnt.nf, o.cnt.ng, o.cnt.nR, 0, o.x2⟩

/-- `get` for functions that always yield an object, and for those that may run out of passes. -/
def obs1 (o : Obj K X E M) : Option (Mark X) := some (obs o)

def obsOpt (r : Option (Obj K X E M)) : Option (Mark X) := r.map obs

/-- The function was asked last at the candidate. -/
def AtX2 (o : Obj K X E M) (_ : List X) (l : X) : Prop := o.x2 = l

def AtX2Opt (r : Option (Obj K X E M)) (_ : List X) (l : X) : Prop := ∀ o, r = some o → o.x2 = l

section linesearch

variable {α β : Type*} {get : α → Option (Mark X)} {get' : β → Option (Mark X)} {P : α → List X → X → Prop} {P' : β → List X → X → Prop} {env : Env K X E} {c0 : Calls K X E} {a : Mark X} {S : List X} {l : X}

theorem Reads.pt {p : X} {F : Calls K X E → α} (h : Reads get P c0 ⟨a.nf, a.ng, a.nR, a.nH, p⟩ S l F) : Reads get P c0 a S l F := by
  obtain ⟨q, q0, q1, q2⟩ := h
  exact ⟨q, q0, fun m hm => ⟨⟨(q1 m hm).1.nf, (q1 m hm).1.ng, (q1 m hm).1.nR, (q1 m hm).1.nH⟩, (q1 m hm).2⟩, q2⟩

theorem Reads.h {k : Calls K X E → Obj K X E M → α} {o : Obj K X E M}
    (hk : Reads get P c0 (obs (h (env.withCalls c0) o)) S (h (env.withCalls c0) o).x2 fun c => k c (h (env.withCalls c0) o)) :
    Reads get P c0 (obs o) S l fun c => k c (h (env.withCalls c) o) := by
  refine Reads.step (G := fun c => Verif.Obj.h (env.withCalls c) o) o.x1 (env.smul o.stepsize o.eta1) ?_ ?_
  · intro c e1 e2
    unfold Verif.Obj.h
    dsimp only [Env.withCalls]
    rw [e1, e2]
  · exact Reads.pt hk

theorem Reads.dh {k : Calls K X E → Obj K X E M → α} {o : Obj K X E M} (hk : ∀ S, Reads get P c0 (obs (dh (env.withCalls c0) o)) S (dh (env.withCalls c0) o).x2 fun c => k c (dh (env.withCalls c0) o)) :
    Reads get P c0 (obs o) S o.x2 fun c => k c (dh (env.withCalls c) o) := by
  refine Reads.grad (G := fun c => Verif.Obj.dh (env.withCalls c) o) o.x2 ?_ rfl (hk _)
  intro c e
  unfold Verif.Obj.dh
  dsimp only [Env.withCalls]
  rw [e]

theorem Reads.gradX2 {k : Calls K X E → Obj K X E M → α} {o : Obj K X E M} (hk : ∀ S, Reads get P c0 (obs (gradX2 (env.withCalls c0) o)) S (gradX2 (env.withCalls c0) o).x2 fun c => k c (gradX2 (env.withCalls c0) o)) :
    Reads get P c0 (obs o) S o.x2 fun c => k c (gradX2 (env.withCalls c) o) := by
  refine Reads.grad (G := fun c => Verif.Obj.gradX2 (env.withCalls c) o) o.x2 ?_ rfl (hk _)
  intro c e
  unfold Verif.Obj.gradX2
  dsimp only [Env.withCalls]
  rw [e]

/-- `bind` for functions that always yield an object. -/
theorem Reads.seq {F : Calls K X E → Obj K X E M} {G : Calls K X E → Obj K X E M → β} (hF : Reads obs1 AtX2 c0 a S l F)
    (hs : ∀ S, Reads get' P' c0 (obs (F c0)) S (F c0).x2 fun c => G c (F c0)) : Reads get' P' c0 a S l fun c => G c (F c) := by
  refine Reads.bind hF ?_ (fun h => by cases h)
  intro m S' l' hm _ hp
  cases hm
  cases hp
  exact hs S'

theorem Reads.some' {F : Calls K X E → Obj K X E M} (hF : Reads obs1 AtX2 c0 a S l F) : Reads obsOpt AtX2Opt c0 a S l fun c => some (F c) := by
  obtain ⟨q, q0, q1, q2⟩ := hF
  exact ⟨q, q0, fun m hm => ⟨(q1 m hm).1, fun o ho => by cases ho; exact (q1 m hm).2⟩, fun c hc => congrArg some (q2 c hc)⟩

/-- `bind` for searches that may run out of passes. -/
theorem Reads.map {F : Calls K X E → Option (Obj K X E M)} {G : Calls K X E → Obj K X E M → Obj K X E M} (hF : Reads obsOpt AtX2Opt c0 a S l F)
    (hs : ∀ p S, F c0 = some p → Reads obs1 AtX2 c0 (obs p) S p.x2 fun c => G c p) : Reads obsOpt AtX2Opt c0 a S l fun c => (F c).map (G c) := by
  refine Reads.bind (G := fun c r => r.map (G c)) hF ?_ ?_
  · intro m S' l' hm _ hp
    cases hF0 : F c0 with
    | none => rw [hF0] at hm; cases hm
    | some p =>
      rw [hF0] at hm hp
      cases hm
      cases hp p rfl
      exact Reads.some' (hs p S' hF0)
  · intro h c
    cases hF0 : F c0 with
    | none => exact ⟨rfl, rfl⟩
    | some p => rw [hF0] at h; cases h

end linesearch

end Verif.Obj
