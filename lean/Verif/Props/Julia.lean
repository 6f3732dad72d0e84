import Verif.Iface.Julia

/-!
# C153: functions of a Julia user
-/

namespace Verif.Julia

variable {K : Type*}

/-! ## Specification -/

/-- The functions of the user as mathematical functions of the point (and the tangent vector). -/
structure Meaning (K : Type*) where
  f : List K → K
  grad : List K → List K
  hess : List K → List K → List K

/-- The tuple begins with `v` and an array. -/
def Answers (r : Reply K) (v : JVal K) (good : List K → Prop) : Prop := ∃ t rest, r.ret = some (v :: .arr t :: rest) ∧ good t

/-- The user's functions compute `M` at the point `p` (vectors of length `len`): they leave their arguments alone, and with a `Tmp` that is empty or one of those they return at `p` they give the right value and such a `Tmp`. -/
structure Computes (H : Handles K) (M : Meaning K) (len : Nat) (p : List K) (good : List K → Prop) : Prop where
  empty : good []
  f : ∀ t, good t → (H.f p t).x = p ∧ (H.f p t).tmp = t ∧ Answers (H.f p t) (.float (M.f p)) good
  grad : ∀ g, H.grad = some g → ∀ t, good t → (g p t).x = p ∧ (g p t).tmp = t ∧ Answers (g p t) (.arr (M.grad p)) good
  hess : ∀ h, H.hess = some h → ∀ t e, good t → (h p t e).x = p ∧ (h p t e).tmp = t ∧ Answers (h p t e) (.arr (M.hess p e)) good
  gradLen : (M.grad p).length = len
  hessLen : ∀ e, e.length = len → (M.hess p e).length = len

/-- What the solver should get. -/
def Handles.want (H : Handles K) (M : Meaning K) (p : List K) : Op K → Res K
  | .f => .value (M.f p)
  | .grad => if H.grad.isSome then .vector (M.grad p) else .numerical
  | .hess e => if H.hess.isSome then .vector (M.hess p e) else .numerical

/-- The tangent vectors have the right length. -/
def Op.fits (len : Nat) : Op K → Prop
  | .hess e => e.length = len
  | _ => True

/-- Blocks in use lie below the next address and `Tmp` is not the point itself. -/
def Tidy (w : World K) (x : Var) : Prop := x.buf < w.next ∧ ∀ b, x.tmp = some b → b < w.next ∧ b ≠ x.buf

/-! ## Values -/

theorem after_mem {w : World K} {x : Var} {r : Reply K} (ht : Tidy w x) (h1 : r.x = w.mem x.buf) (h2 : r.tmp = w.tmpOf x) : w.after x r = w := by
  unfold World.after
  unfold World.tmpOf at h2
  cases hx : x.tmp with
  | none => dsimp only; rw [h1, Function.update_eq_self]
  | some b =>
    rw [hx] at h2
    dsimp only at h2 ⊢
    rw [h1, Function.update_eq_self, h2, Function.update_eq_self]

theorem setTmp_keeps {w : World K} {x : Var} (ht : Tidy w x) (t : List K) (i : Nat) (hi : i < w.next) : (w.setTmp x t).1.mem i = w.mem i := Function.update_of_ne (Nat.ne_of_lt hi) _ _

/-- What a good state is kept by a call. -/
structure Kept (w : World K) (x : Var) (good : List K → Prop) (w' : World K) (x' : Var) : Prop where
  tidy : Tidy w' x'
  buf : x'.buf = x.buf
  mem : ∀ i, i < w.next → w'.mem i = w.mem i
  next : w.next ≤ w'.next
  tmp : good (w'.tmpOf x')

theorem kept_setTmp {w : World K} {x : Var} {good : List K → Prop} (ht : Tidy w x) {t : List K} (hg : good t) : Kept w x good (w.setTmp x t).1 (w.setTmp x t).2 where
  tidy := ⟨Nat.lt_succ_of_lt ht.1, fun b hb => by cases hb; exact ⟨Nat.lt_succ_self _, (Nat.ne_of_lt ht.1).symm⟩⟩
  buf := rfl
  mem := fun i hi => setTmp_keeps ht t i hi
  next := Nat.le_succ _
  tmp := by
    show good (Function.update w.mem w.next t w.next)
    rw [Function.update_self]
    exact hg

theorem kept_keepTmp {w : World K} {x : Var} {good : List K → Prop} (ht : Tidy w x) {t : List K} (hg : good t) (h0 : good (w.tmpOf x)) : Kept w x good (keepTmp w x t).1 (keepTmp w x t).2 := by
  unfold keepTmp
  split
  · exact kept_setTmp ht hg
  · exact ⟨ht, rfl, fun _ _ => rfl, Nat.le_refl _, h0⟩

theorem step_good {H : Handles K} {M : Meaning K} {len : Nat} {good : List K → Prop} {w : World K} {x : Var} (hc : Computes H M len (w.mem x.buf) good) (ht : Tidy w x) (h0 : good (w.tmpOf x)) (o : Op K) (ho : o.fits len) :
    ∃ w' x', step H len w x o = .ok (H.want M (w.mem x.buf) o) w' x' ∧ Kept w x good w' x' := by
  cases o with
  | f =>
    obtain ⟨h1, h2, t, rest, h3, h4⟩ := hc.f _ h0
    have hw := after_mem (r := H.f (w.mem x.buf) (w.tmpOf x)) ht h1 h2
    refine ⟨_, _, ?_, kept_setTmp ht h4⟩
    simp only [step, callF, h3, hw]
    rfl
  | grad =>
    unfold step callGrad Handles.want
    cases hg : H.grad with
    | none => exact ⟨w, x, rfl, ⟨ht, rfl, fun _ _ => rfl, Nat.le_refl _, h0⟩⟩
    | some g =>
      obtain ⟨h1, h2, t, rest, h3, h4⟩ := hc.grad g hg _ h0
      have hw := after_mem (r := g (w.mem x.buf) (w.tmpOf x)) ht h1 h2
      refine ⟨_, _, ?_, kept_keepTmp ht h4 h0⟩
      simp only [h3, hw, hc.gradLen, ne_eq, not_true_eq_false, if_false, Option.isSome_some, if_true]
  | hess e =>
    unfold step callHess Handles.want
    cases hg : H.hess with
    | none => exact ⟨w, x, rfl, ⟨ht, rfl, fun _ _ => rfl, Nat.le_refl _, h0⟩⟩
    | some g =>
      obtain ⟨h1, h2, t, rest, h3, h4⟩ := hc.hess g hg _ e h0
      have hw := after_mem (r := g (w.mem x.buf) (w.tmpOf x) e) ht h1 h2
      have he : e.length = len := ho
      refine ⟨_, _, ?_, kept_keepTmp ht h4 h0⟩
      have hl := hc.hessLen e he
      simp only [h3, hw, hl, he, ne_eq, not_true_eq_false, if_false, Nat.lt_irrefl, Option.isSome_some, if_true]
      rw [List.take_of_length_le (Nat.le_of_eq hl)]

/-- **C153, values.** If the functions of the user compute a cost, its gradient and its Hessian (with whatever they keep in `Tmp`), every sequence of calls on a variable returns the values at that variable, whichever calls were made before and in which
order; a missing gradient or Hessian gives the numerical one; no block of memory that existed before is changed. -/
theorem C153_values {H : Handles K} {M : Meaning K} {len : Nat} {good : List K → Prop} (l : List (Op K)) (w : World K) (x : Var) (hc : Computes H M len (w.mem x.buf) good) (ht : Tidy w x) (h0 : good (w.tmpOf x))
    (hl : ∀ o ∈ l, o.fits len) : ∃ w' x', calls H len l w x = some (l.map (H.want M (w.mem x.buf)), w', x') ∧ x'.buf = x.buf ∧ ∀ i, i < w.next → w'.mem i = w.mem i := by
  induction l generalizing w x with
  | nil => exact ⟨w, x, rfl, rfl, fun _ _ => rfl⟩
  | cons o l ih =>
    obtain ⟨w1, x1, h1, k⟩ := step_good hc ht h0 o (hl o List.mem_cons_self)
    have hp : w1.mem x1.buf = w.mem x.buf := by rw [k.buf]; exact k.mem _ ht.1
    obtain ⟨w2, x2, h2, h3, h4⟩ := ih w1 x1 (by rw [hp]; exact hc) k.tidy k.tmp fun o ho => hl o (List.mem_cons_of_mem _ ho)
    refine ⟨w2, x2, ?_, h3.trans k.buf, fun i hi => (h4 i (Nat.lt_of_lt_of_le hi k.next)).trans (k.mem i hi)⟩
    unfold calls
    rw [h1]
    dsimp only
    rw [h2, hp]
    rfl

/-! ## What the user gets as `Tmp` -/

/-- The arrays returned by the calls so far, oldest first, with a mark for those of the cost. -/
def lastTmp (start : List K) : List (Bool × List K) → List K
  | [] => start
  | (isF, t) :: l => lastTmp (if isF || t.length != 0 then t else start) l

/-- The array a call returns for `Tmp`, with the mark. -/
def returned (H : Handles K) (p t : List K) : Op K → Option (Bool × List K)
  | .f => match (H.f p t).ret with
    | some (_ :: .arr t' :: _) => some (true, t')
    | _ => none
  | .grad => match H.grad.bind fun g => (g p t).ret with
    | some (_ :: .arr t' :: _) => some (false, t')
    | _ => none
  | .hess e => match H.hess.bind fun h => (h p t e).ret with
    | some (_ :: .arr t' :: _) => some (false, t')
    | _ => none

/-- **C153, `Tmp`.** A call that returns leaves in `Tmp` the array that the user's function has returned, except that an empty array from the gradient or the Hessian leaves `Tmp` as it was (an empty one from the cost clears it), and a numerical derivative
does not touch it. -/
theorem C153_tmp {H : Handles K} {len : Nat} {w w' : World K} {x x' : Var} {o : Op K} {r : Res K} (hf : ∀ p t, (H.f p t).tmp = t) (hg : ∀ g, H.grad = some g → ∀ p t, (g p t).tmp = t)
    (hh : ∀ h, H.hess = some h → ∀ p t e, (h p t e).tmp = t) (ht : Tidy w x) (h : step H len w x o = .ok r w' x') :
    w'.tmpOf x' = match returned H (w.mem x.buf) (w.tmpOf x) o with
      | some q => lastTmp (w.tmpOf x) [q]
      | none => w.tmpOf x := by
  have hset : ∀ (w : World K) (t : List K), (w.setTmp x t).1.tmpOf (w.setTmp x t).2 = t := fun w t => Function.update_self _ _ _
  have haft : ∀ rp : Reply K, rp.tmp = w.tmpOf x → (w.after x rp).tmpOf x = w.tmpOf x := by
    intro rp hr
    unfold World.after World.tmpOf at *
    cases hx : x.tmp with
    | none => rfl
    | some b =>
      rw [hx] at hr
      dsimp only at hr ⊢
      rw [Function.update_self, hr]
  have hkeep : ∀ (rp : Reply K) (t : List K), rp.tmp = w.tmpOf x → (keepTmp (w.after x rp) x t).1.tmpOf (keepTmp (w.after x rp) x t).2 = lastTmp (w.tmpOf x) [(false, t)] := by
    intro rp t hr
    unfold keepTmp lastTmp
    by_cases h0 : t.length = 0
    · simp only [h0, ne_eq, not_true_eq_false, if_false]
      simpa [lastTmp] using haft rp hr
    · simp only [h0, ne_eq, not_false_eq_true, if_true]
      rw [hset]
      simp [lastTmp, h0]
  cases o with
  | f =>
    unfold step at h
    unfold returned
    cases hc : callF H w x with
    | ub => rw [hc] at h; cases h
    | exit => rw [hc] at h; cases h
    | numerical => rw [hc] at h; cases h
    | ok v w2 x2 =>
      rw [hc] at h
      cases h
      unfold callF at hc
      dsimp only at hc
      split at hc
      · rename_i v' t rest hr
        cases hc
        rw [hr, hset]
        rfl
      · cases hc
  | grad =>
    unfold step at h
    unfold returned
    cases hc : callGrad H len w x with
    | ub => rw [hc] at h; cases h
    | exit => rw [hc] at h; cases h
    | numerical =>
      rw [hc] at h
      cases h
      unfold callGrad at hc
      cases hgr : H.grad with
      | none => rfl
      | some g =>
        rw [hgr] at hc
        dsimp only at hc
        split at hc
        · split at hc <;> cases hc
        · cases hc
    | ok v w2 x2 =>
      rw [hc] at h
      cases h
      unfold callGrad at hc
      cases hgr : H.grad with
      | none => rw [hgr] at hc; cases hc
      | some g =>
        rw [hgr] at hc
        dsimp only at hc
        split at hc
        · rename_i v' t rest hr
          split at hc
          · cases hc
          · cases hc
            simp only [Option.bind_some, hr]
            exact hkeep _ _ (hg g hgr _ _)
        · cases hc
  | hess eta =>
    simp only [step] at h
    unfold returned
    cases hc : callHess H len eta w x with
    | ub => rw [hc] at h; cases h
    | exit => rw [hc] at h; cases h
    | numerical =>
      rw [hc] at h
      cases h
      unfold callHess at hc
      cases hgr : H.hess with
      | none => rfl
      | some g =>
        rw [hgr] at hc
        dsimp only at hc
        split at hc
        · split at hc
          · cases hc
          · split at hc <;> cases hc
        · cases hc
    | ok v w2 x2 =>
      rw [hc] at h
      cases h
      unfold callHess at hc
      cases hgr : H.hess with
      | none => rw [hgr] at hc; cases hc
      | some g =>
        rw [hgr] at hc
        dsimp only at hc
        split at hc
        · rename_i v' t rest hr
          split at hc
          · cases hc
          · split at hc
            · cases hc
            · cases hc
              simp only [Option.bind_some, hr]
              exact hkeep _ _ (hh g hgr _ _ _)
        · cases hc

/-! ## Failures -/

/-- The tuple that the cost has to return. -/
def IsCost (r : Option (List (JVal K))) : Prop := ∃ v t rest, r = some (.float v :: .arr t :: rest)

/-- **C153, the cost fails.** A cost function that throws, or returns anything but a `Float64` and an array (an integer, say), gives undefined behaviour: the result of the call is not examined. Nothing else does. -/
theorem C153_cost_fails (H : Handles K) (w : World K) (x : Var) : callF H w x = .ub ↔ ¬ IsCost (H.f (w.mem x.buf) (w.tmpOf x)).ret := by
  unfold callF
  dsimp only
  constructor
  · rintro h ⟨v, t, rest, e⟩
    rw [e] at h
    cases h
  · intro h
    split
    · rename_i v t rest e
      exact absurd ⟨v, t, rest, e⟩ h
    · rfl

/-- **C153, the length of the gradient.** A gradient of a wrong length ends the program; it is never copied. -/
theorem C153_gradient_length {H : Handles K} {len : Nat} {w : World K} {x : Var} {g : List K → List K → Reply K} (hg : H.grad = some g) {v t : List K} {rest : List (JVal K)}
    (hr : (g (w.mem x.buf) (w.tmpOf x)).ret = some (.arr v :: .arr t :: rest)) : (callGrad H len w x = .exit ↔ v.length ≠ len) ∧ ∀ a w' x', callGrad H len w x = .ok a w' x' → a = v ∧ a.length = len := by
  unfold callGrad
  rw [hg]
  dsimp only
  rw [hr]
  dsimp only
  constructor
  · by_cases h : v.length = len <;> simp [h]
  · intro a w' x' e
    split at e
    · cases e
    · rename_i h
      cases e
      exact ⟨rfl, not_not.mp h⟩

/-- **C153, negation.** The length of the returned action of the Hessian is compared with the argument, but as many entries are read as the result has: with a longer result the copy reads past the end of the returned array. -/
theorem C153_hessian_overread {H : Handles K} {len : Nat} {w : World K} {x : Var} {h : List K → List K → List K → Reply K} (hh : H.hess = some h) {eta v t : List K} {rest : List (JVal K)}
    (hr : (h (w.mem x.buf) (w.tmpOf x) eta).ret = some (.arr v :: .arr t :: rest)) (hv : v.length = eta.length) : callHess H len eta w x = .ub ↔ eta.length < len := by
  unfold callHess
  rw [hh]
  dsimp only
  rw [hr]
  dsimp only
  rw [if_neg (not_not.mpr hv), hv]
  by_cases e : eta.length < len <;> simp [e]

/-- **C153, negation.** A user function that changes its argument in place changes the variable it was called with, and with it every other variable that shares its memory (a copy of it, for which the library copies on write only its own writes). -/
theorem C153_in_place (H : Handles K) (w w' : World K) (x y x' : Var) (v : K) (hs : y.buf = x.buf) (ht : Tidy w x) (h : callF H w x = .ok v w' x') : w'.mem y.buf = (H.f (w.mem x.buf) (w.tmpOf x)).x := by
  unfold callF at h
  dsimp only at h
  split at h
  · cases h
    rw [hs]
    have hn : (w.after x (H.f (w.mem x.buf) (w.tmpOf x))).next = w.next := by unfold World.after; cases x.tmp <;> rfl
    show Function.update _ _ _ x.buf = _
    rw [Function.update_of_ne (by rw [hn]; exact Nat.ne_of_lt ht.1)]
    unfold World.after
    cases hx : x.tmp with
    | none => exact Function.update_self _ _ _
    | some b =>
      dsimp only
      rw [Function.update_of_ne (ht.2 b hx).2.symm, Function.update_self]
  · cases h

/-! ## Instances -/

/-- Sum of squares of the entries; the cost stores its value in `Tmp` (beginning with 1), the gradient and the Hessian return an empty array. -/
def squares : Handles Int where
  f p t := ⟨p, t, some [.float (p.map fun a => a * a).sum, .arr [1, (p.map fun a => a * a).sum]]⟩
  grad := some fun p t => ⟨p, t, some [.arr (p.map fun a => 2 * a), .arr []]⟩
  hess := some fun p t e => ⟨p, t, some [.arr (e.map fun a => 2 * a), .arr []]⟩

def squaresMeaning : Meaning Int := ⟨fun p => (p.map fun a => a * a).sum, fun p => p.map fun a => 2 * a, fun _ e => e.map fun a => 2 * a⟩

theorem squares_computes (p : List Int) : Computes squares squaresMeaning p.length p fun _ => True where
  empty := trivial
  f _ _ := ⟨rfl, rfl, _, _, rfl, trivial⟩
  grad g hg t _ := by cases hg; exact ⟨rfl, rfl, _, _, rfl, trivial⟩
  hess h hh t e _ := by cases hh; exact ⟨rfl, rfl, _, _, rfl, trivial⟩
  gradLen := by simp [squaresMeaning]
  hessLen e he := by simp [squaresMeaning, he]

/-- Instance of `C153_values`. -/
example : ∃ w' x', calls squares 2 [.f, .grad, .hess [1, 1], .grad, .f] ⟨fun _ => [3, 4], 1⟩ ⟨0, none⟩ = some ([.value 25, .vector [6, 8], .vector [2, 2], .vector [6, 8], .value 25], w', x') := by
  obtain ⟨w', x', h, -⟩ := C153_values [.f, .grad, .hess [1, 1], .grad, .f] ⟨fun _ => [3, 4], 1⟩ ⟨0, none⟩ (squares_computes [3, 4]) ⟨Nat.one_pos, by simp⟩ trivial (by simp [Op.fits])
  exact ⟨w', x', h⟩

/-- Instance of `C153_cost_fails`: a cost that returns an integer. -/
example : callF (K := Int) { squares with f := fun p t => ⟨p, t, some [.other, .arr []]⟩ } ⟨fun _ => [3, 4], 1⟩ ⟨0, none⟩ = .ub := by
  rw [C153_cost_fails]
  rintro ⟨v, t, rest, h⟩
  cases h

/-- Instance of `C153_gradient_length` and `C153_hessian_overread`. -/
example : callGrad squares 3 ⟨fun _ => [3, 4], 1⟩ ⟨0, none⟩ = .exit ∧ callHess squares 3 [1, 1] ⟨fun _ => [3, 4], 1⟩ ⟨0, none⟩ = .ub :=
  ⟨((C153_gradient_length (g := fun p t => ⟨p, t, some [.arr (p.map fun a => 2 * a), .arr []]⟩) rfl rfl).1).mpr (by decide),
    (C153_hessian_overread (h := fun p t e => ⟨p, t, some [.arr (e.map fun a => 2 * a), .arr []]⟩) rfl rfl rfl).mpr (by decide)⟩

/-- A cost that overwrites its argument. -/
def spoiling : Handles Int := { squares with f := fun _ t => ⟨[0, 0], t, some [.float 1, .arr []]⟩ }

/-- Instance of `C153_in_place`: a copy of the variable is changed. -/
example : ∃ v w' x', callF spoiling ⟨fun _ => [3, 4], 1⟩ ⟨0, none⟩ = .ok v w' x' ∧ w'.mem (⟨0, none⟩ : Var).buf = [0, 0] := by
  refine ⟨_, _, _, rfl, ?_⟩
  exact C153_in_place spoiling ⟨fun _ => [3, 4], 1⟩ _ ⟨0, none⟩ ⟨0, none⟩ _ 1 rfl ⟨Nat.one_pos, by simp⟩ rfl

/-- Instance of `C153_tmp`: the gradient leaves the `Tmp` of the cost. -/
example : ∃ w x, calls squares 2 [.f, .grad] ⟨fun _ => [3, 4], 1⟩ ⟨0, none⟩ = some ([.value 25, .vector [6, 8]], w, x) ∧ w.tmpOf x = [1, 25] := ⟨_, _, rfl, rfl⟩

end Verif.Julia
