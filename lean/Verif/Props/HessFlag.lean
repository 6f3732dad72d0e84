import Verif.Problem.HessFlag

/-!
# C163: which Euclidean gradient the Hessian of a run is computed from
-/

namespace Verif.HessFlag

variable {E R : Type}

/-! ## Specification: programs without flag and fields -/

/-- The action of the Hessian at `v`: computed from the Euclidean gradient at `v`. -/
def Prob.trueHess (P : Prob E R) (v eta : E) : E :=
  match P.hess with
  | .free h => h v eta
  | .needs h => h v (P.egrad v) eta

/-- The run as the user thinks of it: the iterate is a point, every reply is about the point. -/
def ideal (P : Prob E R) (m : List (Reply E R) → Act E) : Nat → E → List (Reply E R) → Result E E R
  | 0, v, log => ⟨v, log, .running⟩
  | n + 1, v, log =>
    match m log with
    | .stop => ⟨v, log, .finished⟩
    | .trial u => ideal P m n v (log ++ [.value (P.f u)])
    | .accept u => ideal P m n u (log ++ [.grad (P.f u) (P.conv u (P.egrad u))])
    | .hess eta => ideal P m n v (log ++ [.hess (P.trueHess v eta)])

/-- From the start `v`. -/
def idealRun (P : Prob E R) (m : List (Reply E R) → Act E) (n : Nat) (v : E) : Result E E R :=
  ideal P m n v [.grad (P.f v) (P.conv v (P.egrad v))]

/-- Objects and outcomes. -/
structure Spec (E R : Type) where
  objs : List (Kind × E)
  outs : List (Nat × List (Reply E R) × Status)

/-- What an event should do. -/
def Spec.step (P : Prob E R) (meth : Kind → E → List (Reply E R) → Act E) (n : Nat) (s : Spec E R) :
    Ev E → Spec E R
  | .construct k x0 => { s with objs := s.objs ++ [(k, x0.val)] }
  | .reset j x0 =>
    match s.objs[j]? with
    | none => s
    | some (k, _) => { s with objs := s.objs.set j (k, x0.val) }
  | .derivatives => s
  | .setUseHess _ => s
  | .run j =>
    match s.objs[j]? with
    | none => s
    | some (k, v) =>
      let r := idealRun P (meth k v) n v
      ⟨s.objs.set j (k, r.x), s.outs ++ [(j, r.log, r.status)]⟩

/-- The classes that use the Hessian of the problem. -/
def newton (k : Kind) : Prop := k = .RNewton ∨ k = .RTRNewton

instance (k : Kind) : Decidable (newton k) := inferInstanceAs (Decidable (_ ∨ _))

/-- No class but the Newton methods asks for the action of the Hessian. -/
def FirstOrder (meth : Kind → E → List (Reply E R) → Act E) : Prop :=
  ∀ k, ¬ newton k → ∀ v log eta, meth k v log ≠ .hess eta

/-- Whenever a Newton object is run, the last of the constructions, `SetProbX`, derivative checks and `SetUseHess` before was in its favour: of a Newton class, a derivative check, or `SetUseHess(true)`. `u`: in favour so far; `ks`: the classes of the objects. -/
def Guarded : Bool → List Kind → List (Ev E) → Prop
  | _, _, [] => True
  | _, ks, .construct k _ :: r => Guarded (decide (newton k)) (ks ++ [k]) r
  | u, ks, .reset j _ :: r =>
    match ks[j]? with
    | none => Guarded u ks r
    | some k => Guarded (decide (newton k)) ks r
  | _, ks, .derivatives :: r => Guarded true ks r
  | _, ks, .setUseHess v :: r => Guarded v ks r
  | u, ks, .run j :: r => (∀ k, ks[j]? = some k → newton k → u = true) ∧ Guarded u ks r

/-! ## Helper lemmas -/

theorem setsHess_eq (k : Kind) : k.setsHess = decide (newton k) := by cases k <;> rfl

/-- The field holds the Euclidean gradient of the point. -/
def Var.Good (P : Prob E R) (x : Var E) : Prop := x.egrad = some (P.egrad x.val)

theorem hessEta_good {P : Prob E R} {b : Build} {x : Var E} (hx : x.Good P) (eta : E) :
    hessEta P b x eta = some (P.trueHess x.val eta) := by
  unfold hessEta Prob.trueHess
  cases P.hess with
  | free h => rfl
  | needs h =>
    simp only [Var.Good] at hx
    simp [field, hx]

theorem grad_val (P : Prob E R) (use : Bool) (x : Var E) : (grad P use x).1.val = x.val := by
  unfold grad; cases use <;> rfl

theorem drive_good (P : Prob E R) (b : Build) (m : List (Reply E R) → Act E) :
    ∀ n (x : Var E) log, x.Good P →
      let r := drive P b true m n x log
      let s := ideal P m n x.val log
      r.x.val = s.x ∧ r.log = s.log ∧ r.status = s.status := by
  intro n
  induction n with
  | zero => intro x log _; exact ⟨rfl, rfl, rfl⟩
  | succ n ih =>
    intro x log hx
    simp only [drive, ideal]
    cases m log with
    | stop => exact ⟨rfl, rfl, rfl⟩
    | trial v => exact ih x _ hx
    | accept v => exact ih _ _ rfl
    | hess eta =>
      simp only [hessEta_good hx]
      exact ih x _ hx

theorem drive_first (P : Prob E R) (b : Build) (use : Bool) (m : List (Reply E R) → Act E)
    (hm : ∀ log eta, m log ≠ .hess eta) :
    ∀ n (x : Var E) log,
      let r := drive P b use m n x log
      let s := ideal P m n x.val log
      r.x.val = s.x ∧ r.log = s.log ∧ r.status = s.status := by
  intro n
  induction n with
  | zero => intro x log; exact ⟨rfl, rfl, rfl⟩
  | succ n ih =>
    intro x log
    simp only [drive, ideal]
    cases h : m log with
    | stop => exact ⟨rfl, rfl, rfl⟩
    | trial v => exact ih x _
    | accept v =>
      have := ih (grad P use ⟨v, none⟩).1 (log ++ [.grad (P.f v) (grad P use ⟨v, none⟩).2])
      simp only [grad_val] at this
      exact this
    | hess eta => exact absurd h (hm log eta)

theorem drive_free (P : Prob E R) {h : E → E → E} (hP : P.hess = .free h) (b : Build) (use : Bool)
    (m : List (Reply E R) → Act E) :
    ∀ n (x : Var E) log,
      let r := drive P b use m n x log
      let s := ideal P m n x.val log
      r.x.val = s.x ∧ r.log = s.log ∧ r.status = s.status := by
  intro n
  induction n with
  | zero => intro x log; exact ⟨rfl, rfl, rfl⟩
  | succ n ih =>
    intro x log
    simp only [drive, ideal]
    cases h : m log with
    | stop => exact ⟨rfl, rfl, rfl⟩
    | trial v => exact ih x _
    | accept v =>
      have := ih (grad P use ⟨v, none⟩).1 (log ++ [.grad (P.f v) (grad P use ⟨v, none⟩).2])
      simp only [grad_val] at this
      exact this
    | hess eta =>
      simp only [hessEta, Prob.trueHess, hP]
      exact ih x _

theorem ideal_prefix (P : Prob E R) (m : List (Reply E R) → Act E) :
    ∀ n v log, ∃ t, (ideal P m n v log).log = log ++ t := by
  intro n
  induction n with
  | zero => intro v log; exact ⟨[], by simp [ideal]⟩
  | succ n ih =>
    intro v log
    simp only [ideal]
    cases m log with
    | stop => exact ⟨[], by simp⟩
    | trial u => obtain ⟨t, ht⟩ := ih v (log ++ [.value (P.f u)]); exact ⟨_, by rw [ht, List.append_assoc]⟩
    | accept u =>
      obtain ⟨t, ht⟩ := ih u (log ++ [.grad (P.f u) (P.conv u (P.egrad u))])
      exact ⟨_, by rw [ht, List.append_assoc]⟩
    | hess eta =>
      obtain ⟨t, ht⟩ := ih v (log ++ [.hess (P.trueHess v eta)])
      exact ⟨_, by rw [ht, List.append_assoc]⟩

/-! ## Properties -/

/-- Is it a reply about the Hessian? -/
def Reply.isHess : Reply E R → Bool
  | .hess _ => true
  | _ => false

/-- Is it a reply about a new iterate? -/
def Reply.isGrad : Reply E R → Bool
  | .grad _ _ => true
  | _ => false

/-- **C163**, one run: if the flag of the problem is set when `Run` is called, then whatever the method asks for and however long it runs, whatever the start carries in its field, with or without assertions: every gradient and every action of the Hessian it is told is the one at the current iterate, computed from the Euclidean gradient there; no run is aborted. -/
theorem C163_run (P : Prob E R) (b : Build) (m : List (Reply E R) → Act E) (n : Nat) (x0 : Var E) :
    (run P b true m n x0).log = (idealRun P m n x0.val).log ∧
      (run P b true m n x0).status = (idealRun P m n x0.val).status ∧
      (run P b true m n x0).x.val = (idealRun P m n x0.val).x := by
  have h := drive_good P b m n (grad P true x0).1 [.grad (P.f x0.val) (grad P true x0).2] rfl
  simp only [grad_val] at h
  exact ⟨h.2.1, h.2.2, h.1⟩

/-- **C163**, first-order methods and Euclidean domains with a Hessian of the user's own: the flag is of no influence. -/
theorem C163_indifferent (P : Prob E R) (b : Build) (use : Bool) (m : List (Reply E R) → Act E) (n : Nat)
    (x0 : Var E) (h : (∀ log eta, m log ≠ .hess eta) ∨ ∃ g, P.hess = .free g) :
    (run P b use m n x0).log = (idealRun P m n x0.val).log ∧
      (run P b use m n x0).status = (idealRun P m n x0.val).status ∧
      (run P b use m n x0).x.val = (idealRun P m n x0.val).x := by
  have key : ∀ (x : Var E) log, (drive P b use m n x log).x.val = (ideal P m n x.val log).x ∧
      (drive P b use m n x log).log = (ideal P m n x.val log).log ∧
      (drive P b use m n x log).status = (ideal P m n x.val log).status := by
    intro x log
    rcases h with h | ⟨g, hg⟩
    · exact drive_first P b use m h n x log
    · exact drive_free P hg b use m n x log
  have h := key (grad P use x0).1 [.grad (P.f x0.val) (grad P use x0).2]
  simp only [grad_val] at h
  exact ⟨h.2.1, h.2.2, h.1⟩

/-- The state of the program agrees with the specification. -/
def Rel (w : World E R) (s : Spec E R) (u : Bool) (ks : List Kind) : Prop :=
  w.use = u ∧ w.objs.map (fun o => (o.1, o.2.val)) = s.objs ∧ w.objs.map (·.1) = ks ∧ w.outs = s.outs

theorem session_rel (P : Prob E R) (b : Build) (meth : Kind → E → List (Reply E R) → Act E)
    (hf : FirstOrder meth) (n : Nat) :
    ∀ (evs : List (Ev E)) (w : World E R) (s : Spec E R) (u : Bool) (ks : List Kind),
      Rel w s u ks → Guarded u ks evs →
      (session P b meth n w evs).outs = (evs.foldl (Spec.step P meth n) s).outs ∧
        (session P b meth n w evs).objs.map (fun o => (o.1, o.2.val)) =
          (evs.foldl (Spec.step P meth n) s).objs := by
  intro evs
  induction evs with
  | nil => intro w s u ks hr _; exact ⟨hr.2.2.2, hr.2.1⟩
  | cons e r ih =>
    intro w s u ks hr hg
    obtain ⟨h1, h2, h3, h4⟩ := hr
    simp only [session, List.foldl_cons]
    have hks : ∀ j : Nat, ks[j]? = Option.map (fun o : Kind × Var E => o.1) (w.objs[j]?) := by intro j; rw [← h3, List.getElem?_map]
    have hob : ∀ j : Nat, s.objs[j]? = (w.objs[j]?).map (fun o => (o.1, o.2.val)) := by
      intro j; rw [← h2, List.getElem?_map]
    have hset : ∀ (j : Nat) (k : Kind) (x y : Var E), w.objs[j]? = some (k, x) →
        (w.objs.set j (k, y)).map (·.1) = ks := by
      intro j k x y hj
      rw [List.map_set, h3]
      apply List.ext_getElem?
      intro i
      rw [List.getElem?_set]
      split
      · rename_i hij
        subst hij
        have hk : ks[j]? = some k := by rw [hks, hj]; rfl
        have hl : j < ks.length := by
          rcases Nat.lt_or_ge j ks.length with h | h
          · exact h
          · rw [List.getElem?_eq_none h] at hk; cases hk
        rw [if_pos hl, hk]
      · rfl
    cases e with
    | construct k x0 =>
      simp only [Guarded] at hg
      refine ih _ _ _ _ ⟨?_, ?_, ?_, ?_⟩ hg
      · exact setsHess_eq k
      · simp [Ev.step, Spec.step, h2]
      · simp [Ev.step, h3]
      · exact h4
    | reset j x0 =>
      simp only [Guarded] at hg
      cases hj : w.objs[j]? with
      | none =>
        rw [hks, hj] at hg
        have e1 : Ev.step P b meth n w (.reset j x0) = w := by simp only [Ev.step, hj]
        have e2 : Spec.step P meth n s (.reset j x0) = s := by simp only [Spec.step, hob, hj, Option.map_none]
        rw [e1, e2]
        exact ih _ _ _ _ ⟨h1, h2, h3, h4⟩ hg
      | some o =>
        obtain ⟨k, x⟩ := o
        rw [hks, hj] at hg
        have e1 : Ev.step P b meth n w (.reset j x0) =
            { w with use := k.setsHess, objs := w.objs.set j (k, x0) } := by simp only [Ev.step, hj]
        have e2 : Spec.step P meth n s (.reset j x0) = { s with objs := s.objs.set j (k, x0.val) } := by
          simp only [Spec.step, hob, hj, Option.map_some]
        rw [e1, e2]
        refine ih _ _ _ _ ⟨setsHess_eq k, ?_, ?_, h4⟩ hg
        · simp only [List.map_set, h2]
        · exact hset j k x x0 hj
    | derivatives =>
      simp only [Guarded] at hg
      exact ih _ _ _ _ ⟨rfl, h2, h3, h4⟩ hg
    | setUseHess v =>
      simp only [Guarded] at hg
      exact ih _ _ _ _ ⟨rfl, h2, h3, h4⟩ hg
    | run j =>
      simp only [Guarded] at hg
      obtain ⟨hg1, hg2⟩ := hg
      cases hj : w.objs[j]? with
      | none =>
        have e1 : Ev.step P b meth n w (.run j) = w := by simp only [Ev.step, hj]
        have e2 : Spec.step P meth n s (.run j) = s := by simp only [Spec.step, hob, hj, Option.map_none]
        rw [e1, e2]
        exact ih _ _ _ _ ⟨h1, h2, h3, h4⟩ hg2
      | some o =>
        obtain ⟨k, x⟩ := o
        have e1 : Ev.step P b meth n w (.run j) =
            { w with objs := w.objs.set j (k, (HessFlag.run P b w.use (meth k x.val) n x).x),
                     outs := w.outs ++ [(j, (HessFlag.run P b w.use (meth k x.val) n x).log,
                       (HessFlag.run P b w.use (meth k x.val) n x).status)] } := by
          simp only [Ev.step, hj]
        have e2 : Spec.step P meth n s (.run j) =
            ⟨s.objs.set j (k, (idealRun P (meth k x.val) n x.val).x),
              s.outs ++ [(j, (idealRun P (meth k x.val) n x.val).log,
                (idealRun P (meth k x.val) n x.val).status)]⟩ := by
          simp only [Spec.step, hob, hj, Option.map_some]
        have key : (HessFlag.run P b w.use (meth k x.val) n x).log = (idealRun P (meth k x.val) n x.val).log ∧
            (HessFlag.run P b w.use (meth k x.val) n x).status = (idealRun P (meth k x.val) n x.val).status ∧
            (HessFlag.run P b w.use (meth k x.val) n x).x.val = (idealRun P (meth k x.val) n x.val).x := by
          by_cases hk : newton k
          · have hu : w.use = true := by
              rw [h1]
              exact hg1 k (by rw [hks, hj]; rfl) hk
            rw [hu]
            exact C163_run P b _ n x
          · exact C163_indifferent P b w.use _ n x (Or.inl (hf k hk x.val))
        rw [e1, e2]
        refine ih _ _ _ _ ⟨h1, ?_, ?_, ?_⟩ hg2
        · simp only [List.map_set, h2, key.2.2]
        · exact hset j k x _ hj
        · simp only [h4, key.1, key.2.1]

/-- **C163**, whole programs: any number of solver objects of any classes on one problem, constructed, restarted and run in any order, mixed with derivative checks, whatever the flag is at the beginning. If before every run of a Newton object the last construction, `SetProbX`, derivative check or `SetUseHess` was in its favour, then all runs are told exactly what the specification says, and end as it says. -/
theorem C163_program (P : Prob E R) (b : Build) (meth : Kind → E → List (Reply E R) → Act E)
    (hf : FirstOrder meth) (n : Nat) (evs : List (Ev E)) (u : Bool) (hg : Guarded u [] evs) :
    (session P b meth n ⟨u, [], []⟩ evs).outs = (evs.foldl (Spec.step P meth n) ⟨[], []⟩).outs :=
  (session_rel P b meth hf n evs _ _ u [] ⟨rfl, rfl, rfl, rfl⟩ hg).1

/-- **C163**: programs with Newton objects only, and without `SetUseHess(false)`, need no care. -/
theorem C163_newton_only (evs : List (Ev E))
    (h : ∀ e ∈ evs, match e with
      | .construct k _ => newton k
      | .setUseHess v => v = true
      | _ => True) (u : Bool) : Guarded u [] evs := by
  have key : ∀ (evs : List (Ev E)) (u : Bool) (ks : List Kind), (∀ k ∈ ks, newton k) → (u = true ∨ ks = []) →
      (∀ e ∈ evs, match e with
        | .construct k _ => newton k
        | .setUseHess v => v = true
        | _ => True) → Guarded u ks evs := by
    intro evs
    induction evs with
    | nil => intros; trivial
    | cons e r ih =>
      intro u ks hk hu he
      have hr := fun e h => he e (List.mem_cons_of_mem _ h)
      have h0 := he e List.mem_cons_self
      cases e with
      | construct k x =>
        refine ih _ _ ?_ (Or.inl (decide_eq_true h0)) hr
        intro k' hk'
        rcases List.mem_append.1 hk' with h | h
        · exact hk _ h
        · rw [List.mem_singleton.1 h]; exact h0
      | reset j x =>
        simp only [Guarded]
        cases hj : ks[j]? with
        | none => exact ih _ _ hk hu hr
        | some k => exact ih _ _ hk (Or.inl (decide_eq_true (hk k (List.mem_of_getElem? hj)))) hr
      | derivatives => exact ih _ _ hk (Or.inl rfl) hr
      | setUseHess v => exact ih _ _ hk (Or.inl h0) hr
      | run j =>
        refine ⟨?_, ih _ _ hk hu hr⟩
        intro k hj _
        rcases hu with hu | hu
        · exact hu
        · rw [hu] at hj; simp at hj
  exact key evs u [] (by intro k h; cases h) (Or.inr rfl) h

/-- **C163**: calling `SetProbX` of an object right before its `Run`, every time, is enough, whatever the objects are and whatever the flag was left at. -/
theorem C163_reset_first (u : Bool) (ks : List Kind) (jobs : List (Nat × Var E)) :
    Guarded u ks (jobs.flatMap fun p => [.reset p.1 p.2, .run p.1]) := by
  induction jobs generalizing u with
  | nil => trivial
  | cons p r ih =>
    simp only [List.flatMap_cons, List.cons_append, List.nil_append, Guarded]
    cases hj : ks[p.1]? with
    | none => exact ⟨(by intro k h; cases h), ih u⟩
    | some k => exact ⟨(by intro k' h hk; cases h; exact decide_eq_true hk), ih _⟩

/-- **C163 fails** otherwise, with assertions: if another solver that does not use the Hessian is constructed on the problem between the construction and the `Run` of an object (a Newton object, say), then the run is told what the specification says until it asks for the first action of the Hessian, and there the program is aborted. Whatever happened before, whatever the method. -/
theorem C163_interloper_aborts (P : Prob E R) {h : E → E → E → E} (hP : P.hess = .needs h)
    (meth : Kind → E → List (Reply E R) → Act E) (n : Nat) (w : World E R) (k : Kind) {k' : Kind}
    (hk' : ¬ newton k') (v : E) (y : Var E) :
    ∃ log status,
      (session P .debug meth n w [.construct k ⟨v, none⟩, .construct k' y, .run w.objs.length]).outs =
        w.outs ++ [(w.objs.length, log, status)] ∧
      (∃ t, (idealRun P (meth k v) n v).log = log ++ t) ∧ (∀ r ∈ log, r.isHess = false) ∧
      ((∃ r ∈ (idealRun P (meth k v) n v).log, r.isHess = true) → status = .aborted) := by
  have key : ∀ (m : List (Reply E R) → Act E) n v log, (∀ r ∈ log, r.isHess = false) →
      (∃ t, (ideal P m n v log).log = (drive P .debug false m n ⟨v, none⟩ log).log ++ t) ∧
      (∀ r ∈ (drive P .debug false m n ⟨v, none⟩ log).log, r.isHess = false) ∧
      ((∃ r ∈ (ideal P m n v log).log, r.isHess = true) →
        (drive P .debug false m n ⟨v, none⟩ log).status = .aborted) := by
    intro m n
    induction n with
    | zero =>
      intro v log hl
      refine ⟨⟨[], by simp [ideal, drive]⟩, hl, ?_⟩
      rintro ⟨r, hr, hr'⟩
      rw [hl r hr] at hr'; cases hr'
    | succ n ih =>
      intro v log hl
      have happ : ∀ r : Reply E R, r.isHess = false → ∀ q ∈ log ++ [r], q.isHess = false := by
        intro r hr q hq
        rcases List.mem_append.1 hq with h | h
        · exact hl q h
        · rw [List.mem_singleton.1 h]; exact hr
      cases hm : m log with
      | stop =>
        simp only [drive, ideal, hm]
        refine ⟨⟨[], by simp⟩, hl, ?_⟩
        rintro ⟨r, hr, hr'⟩
        rw [hl r hr] at hr'; cases hr'
      | trial u =>
        simp only [drive, ideal, hm]
        exact ih v _ (happ _ rfl)
      | accept u =>
        simp only [drive, ideal, hm]
        exact ih u _ (happ _ rfl)
      | hess eta =>
        have hi := ideal_prefix P m (n + 1) v log
        simp only [drive, hm, hessEta, hP, field, Option.map_none]
        exact ⟨hi, hl, fun _ => trivial⟩
  refine ⟨(run P .debug false (meth k v) n ⟨v, none⟩).log, (run P .debug false (meth k v) n ⟨v, none⟩).status, ?_, ?_⟩
  · have hu : k'.setsHess = false := by rw [setsHess_eq]; exact decide_eq_false hk'
    simp [session, Ev.step, hu, List.append_assoc]
  · exact key (meth k v) n v [.grad (P.f v) (P.conv v (P.egrad v))]
      (by intro r hr; rw [List.mem_singleton.1 hr]; rfl)

/-- **C163 fails** otherwise, without assertions: the same program runs, and every action of the Hessian is computed with the *point* in the place of the Euclidean gradient. -/
theorem C163_interloper_wrong (P : Prob E R) {h : E → E → E → E} (hP : P.hess = .needs h)
    (meth : Kind → E → List (Reply E R) → Act E) (n : Nat) (w : World E R) (k : Kind) {k' : Kind}
    (hk' : ¬ newton k') (v : E) (y : Var E) :
    let Q : Prob E R := { P with hess := .free fun x eta => h x x eta }
    (session P .release meth n w [.construct k ⟨v, none⟩, .construct k' y, .run w.objs.length]).outs =
      w.outs ++ [(w.objs.length, (idealRun Q (meth k v) n v).log, (idealRun Q (meth k v) n v).status)] := by
  intro Q
  have key : ∀ (m : List (Reply E R) → Act E) n v log,
      (drive P .release false m n ⟨v, none⟩ log).log = (ideal Q m n v log).log ∧
      (drive P .release false m n ⟨v, none⟩ log).status = (ideal Q m n v log).status := by
    intro m n
    induction n with
    | zero => intro v log; exact ⟨rfl, rfl⟩
    | succ n ih =>
      intro v log
      simp only [drive, ideal]
      cases m log with
      | stop => exact ⟨rfl, rfl⟩
      | trial u => exact ih v _
      | accept u => exact ih u _
      | hess eta =>
        simp only [hessEta, hP, field, Option.map_some]
        exact ih v _
  have hu : k'.setsHess = false := by rw [setsHess_eq]; exact decide_eq_false hk'
  have hr := key (meth k v) n v [.grad (P.f v) (P.conv v (P.egrad v))]
  simp only [session, List.foldl_cons, List.foldl_nil, Ev.step, hu]
  simp only [List.append_assoc, List.cons_append, List.nil_append, List.getElem?_append_right (Nat.le_refl _),
    Nat.sub_self, List.getElem?_cons_zero]
  simp only [HessFlag.run, grad, if_neg Bool.false_ne_true]
  rw [hr.1, hr.2]
  rfl

/-- **C163**: run again with the flag cleared, an object that has been run before (its iterate carries the field) still gets the right Hessian until it moves. -/
theorem C163_carried (P : Prob E R) (b : Build) (m : List (Reply E R) → Act E) (n : Nat) (v : E)
    (hs : ∀ r ∈ (idealRun P m n v).log.tail, r.isGrad = false) :
    (run P b false m n ⟨v, some (P.egrad v)⟩).log = (idealRun P m n v).log ∧
      (run P b false m n ⟨v, some (P.egrad v)⟩).status = (idealRun P m n v).status := by
  have key : ∀ n log c, (∀ r ∈ ((ideal P m n v (c :: log)).log).tail, r.isGrad = false) →
      (drive P b false m n ⟨v, some (P.egrad v)⟩ (c :: log)).log = (ideal P m n v (c :: log)).log ∧
      (drive P b false m n ⟨v, some (P.egrad v)⟩ (c :: log)).status = (ideal P m n v (c :: log)).status := by
    intro n
    induction n with
    | zero => intro log c _; exact ⟨rfl, rfl⟩
    | succ n ih =>
      intro log c hl
      simp only [drive, ideal] at hl ⊢
      cases hm : m (c :: log) with
      | stop => exact ⟨rfl, rfl⟩
      | trial u =>
        simp only [hm] at hl ⊢
        exact ih _ _ hl
      | accept u =>
        simp only [hm] at hl
        obtain ⟨t, ht⟩ := ideal_prefix P m n u (c :: log ++ [.grad (P.f u) (P.conv u (P.egrad u))])
        rw [ht] at hl
        have := hl (.grad (P.f u) (P.conv u (P.egrad u))) (by simp)
        cases this
      | hess eta =>
        simp only [hm] at hl ⊢
        have hg : (⟨v, some (P.egrad v)⟩ : Var E).Good P := rfl
        simp only [hessEta_good hg]
        exact ih _ _ hl
  exact key n [] _ hs

/-! ## Concrete case: the Rayleigh quotient on the circle, one coordinate -/

/-- `f(x) = 3x²`, Hessian `6η - x·EGrad·η`. -/
def exP : Prob Int Int := ⟨fun x => 3 * x * x, fun x => 6 * x, fun x g => g - x * x * g, .needs fun x g eta => 6 * eta - x * g * eta⟩

/-- One action of the Hessian, then stop (Newton); one step, then stop (the others). -/
def exM (k : Kind) (_ : Int) (log : List (Reply Int Int)) : Act Int :=
  if newton k then
    match log with
    | [_] => .hess 1
    | _ => .stop
  else
    match log with
    | [_] => .accept 1
    | _ => .stop

theorem exM_first : FirstOrder exM := by
  intro k hk v log eta
  simp only [exM, if_neg hk]
  split <;> intro h <;> cases h

example : (session exP .debug exM 5 ⟨false, [], []⟩
    [.construct .RSD ⟨2, none⟩, .construct .RTRNewton ⟨2, none⟩, .run 0, .run 1]).outs =
    [(0, [.grad 12 (-36), .grad 3 0], .finished), (1, [.grad 12 (-36), .hess (-18)], .finished)] := by decide

example : (session exP .debug exM 5 ⟨false, [], []⟩
    [.construct .RTRNewton ⟨2, none⟩, .construct .RSD ⟨2, none⟩, .run 0]).outs =
    [(0, [.grad 12 (-36)], .aborted)] := by decide

example : (session exP .release exM 5 ⟨false, [], []⟩
    [.construct .RTRNewton ⟨2, none⟩, .construct .RSD ⟨2, none⟩, .run 0]).outs =
    [(0, [.grad 12 (-36), .hess 2], .finished)] := by decide

/-- The restart of `C163_reset_first` repairs it. -/
example : (session exP .debug exM 5 ⟨false, [], []⟩
    [.construct .RTRNewton ⟨2, none⟩, .construct .RSD ⟨2, none⟩, .reset 0 ⟨2, none⟩, .run 0]).outs =
    [(0, [.grad 12 (-36), .hess (-18)], .finished)] := by decide

example : Guarded (E := Int) false [] [.construct .RSD ⟨2, none⟩, .construct .RTRNewton ⟨2, none⟩, .run 0, .run 1] := by
  simp [Guarded, newton]

example : ∀ r ∈ (idealRun exP (exM .RTRNewton 2) 5 2).log.tail, r.isGrad = false := by decide

end Verif.HessFlag
