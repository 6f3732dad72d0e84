import Verif.Props.Report

/-!
# C184: the line printed at the end of a line-search run

`SolversSMLS::PrintFinalInfo` (`Solvers/SolversSMLS.cpp:636-655`) prints the members `f2` and `ngf2`, while the getters return `f1` and `ngf1`.
-/

set_option linter.unusedSectionVars false

namespace Verif.Obj

variable {K X E M : Type*} [Add K] [Sub K] [Mul K] [Div K] [Neg K] {env : Env K X E} {cfg : Cfg K X E} {hk : Hooks K X E M}

/-- The numbers in the line: iterations, value, gradient norm, gradient norm relative to the start (SolversSMLS.cpp:638-640). -/
def finalLine (o : Obj K X E M) : Nat × K × K × K := (o.iter, o.f2, o.ngf2, o.ngf2 / o.ngf0)

/-- The members a search does not touch. -/
def SameNorms (o s : Obj K X E M) : Prop := s.f1 = o.f1 ∧ s.ngf1 = o.ngf1 ∧ s.ngf2 = o.ngf2

theorem SameNorms.trans {a b c : Obj K X E M} (h : SameNorms a b) (h' : SameNorms b c) : SameNorms a c :=
  ⟨h'.1.trans h.1, h'.2.1.trans h.2.1, h'.2.2.trans h.2.2⟩

theorem backtrack_norms (mp : K) (n : Nat) (o s : Obj K X E M) (hs : backtrack env cfg mp n o = some s) : SameNorms o s := by
  induction n generalizing o with
  | zero => simp [backtrack] at hs
  | succ n ih =>
    simp only [backtrack] at hs
    split at hs
    · split at hs
      · cases hs; exact ⟨rfl, rfl, rfl⟩
      · have t := ih _ hs; exact t
    · cases hs; exact ⟨rfl, rfl, rfl⟩

theorem interpLoop_norms (mp : K) (n : Nat) (pre pre2 f2pre : K) (o s : Obj K X E M) (hs : interpLoop env cfg mp n pre pre2 f2pre o = some s) : SameNorms o s := by
  induction n generalizing o pre pre2 f2pre with
  | zero => simp [interpLoop] at hs
  | succ n ih =>
    simp only [interpLoop] at hs
    split at hs
    · split at hs
      · cases hs; exact ⟨rfl, rfl, rfl⟩
      · have t := ih _ _ _ _ hs; exact t
    · cases hs; exact ⟨rfl, rfl, rfl⟩

theorem armijo_norms (n : Nat) (o s : Obj K X E M) (hs : armijo env cfg n o = some s) : SameNorms o s := by
  simp only [armijo] at hs
  split at hs
  · rw [Option.map_eq_some_iff] at hs
    obtain ⟨t, ht, rfl⟩ := hs
    have u := backtrack_norms _ _ _ _ ht; exact u
  · rw [Option.map_eq_some_iff] at hs
    obtain ⟨t, ht, rfl⟩ := hs
    split at ht
    · have u := interpLoop_norms _ _ _ _ _ _ _ ht; exact u
    · have u := interpLoop_norms _ _ _ _ _ _ _ ht; exact u

theorem search_norms (n : Nat) (o s : Obj K X E M) (hs : search env cfg n o = some s) : SameNorms o s := by
  simp only [search] at hs
  split at hs
  · cases hs; exact ⟨rfl, rfl, rfl⟩
  · split at hs
    · exact armijo_norms n o s hs
    · rw [Option.map_eq_some_iff] at hs
      obtain ⟨r, _, rfl⟩ := hs
      exact ⟨rfl, rfl, rfl⟩

theorem prepare_norms (o : Obj K X E M) : SameNorms o (prepare env cfg hk o) := by
  simp only [prepare, initialStepSize]
  split <;> exact ⟨rfl, rfl, rfl⟩

theorem loop_norms (m n : Nat) (nonmon isstop : Bool) (o r : Obj K X E M) (h : o.f2 = o.f1) (hn : o.ngf2 = o.ngf1) (hr : loop env cfg hk m n nonmon isstop o = some r) :
    r.ngf2 = r.ngf1 ∧ (r.f2 = r.f1 ∨ env.finite r.f2 = false) := by
  induction n generalizing nonmon isstop o with
  | zero => simp [loop] at hr
  | succ n ih =>
    simp only [loop] at hr
    split at hr
    · cases hs : search env cfg m (prepare env cfg hk o) with
      | none => rw [hs] at hr; cases hr
      | some s =>
        rw [hs] at hr
        simp only at hr
        split at hr
        · exact ih _ _ _ rfl rfl hr
        · rename_i hf
          cases hr
          obtain ⟨_, h2, h3⟩ := SameNorms.trans (prepare_norms o) (search_norms m _ _ hs)
          exact ⟨by rw [h2, h3, hn], Or.inr (by simpa using hf)⟩
    · cases hr; exact ⟨hn, Or.inl h⟩

/-- **C184.** The gradient norm printed at the end of a run, also relative to the start, and the number of iterations are always those the getters return. The value is too, unless it is not
finite. -/
theorem C184_final_line (m n : Nat) (o r : Obj K X E M) (hr : run env cfg hk m n o = some r) :
    (finalLine r).1 = (read r).iter ∧ (finalLine r).2.2 = ((read r).ng, (read r).ng / (read r).ng0) ∧
    (env.finite (finalLine r).2.1 = true → (finalLine r).2.1 = (read r).f) := by
  simp only [run, Option.map_eq_some_iff] at hr
  obtain ⟨s, hs, rfl⟩ := hr
  obtain ⟨h1, h2⟩ := loop_norms m n false _ _ s rfl rfl hs
  refine ⟨rfl, ?_, fun hf => ?_⟩
  · simp only [finalLine, read, h1]
  · rcases h2 with h2 | h2
    · exact h2
    · simp only [finalLine] at hf
      rw [h2] at hf; cases hf

/-- Values of at least 50 stand for infinity; every point but 1 has such a value. -/
def wallEnv : Env ℚ ℚ ℚ := { lineEnv 2 with f := fun x => if x = 1 then 1 else 100, finite := fun v => decide (v < 50) }

/-- **C184, negation for values that are not finite.** When every trial value is infinite, the run returns the starting point with its value; the line printed says infinity. -/
theorem C184_infinite_printed :
    ((run wallEnv (lineCfg .gradF0 0 2) (rsd wallEnv) 20 10 (setProbX 0 id 1 (freshObj () 7))).map fun o => ((read o).x, (read o).f, (finalLine o).2.1, wallEnv.finite (finalLine o).2.1)) =
      some (1, 1, 100, false) := by
  decide +kernel

/-- A run that ends regularly after two iterations. -/
example : ((run (lineEnv 4) (lineCfg .gradF0 0 2) (rsd (lineEnv 4)) 10 10 (setProbX 0 id 1 (freshObj () 7))).map fun o => (finalLine o, (read o).f)) = some ((2, 0, 0, 0), 0) := by
  decide +kernel

end Verif.Obj
