import Verif.Solver.CayleySearch
import Verif.Props.CayleyCache

/-!
# C183: in line-search runs every Cayley transport is the one along the step between its two points
-/

namespace Verif.Stiefel

open Matrix Verif.Mat

variable {n p : Type*} [Fintype n] [DecidableEq n] [Fintype p] [DecidableEq p]

/-- The fields at `s` are those of a retraction along `η` that led to `y`. -/
def Linked (s : CayPoint n p) (η y : Matrix n p ℝ) : Prop :=
  y = cayleyRetraction s.x η ∧ ∀ ξ, cayStep s (.transport η ξ) = some (s, cayleyTransport s.x η ξ)

/-- Specification of a transport: it goes along the step that leads from one point to the other. -/
def Moved.Right (m : Moved n p) : Prop := m.y = cayleyRetraction m.x m.η ∧ m.r = cayleyTransport m.x m.η m.ξ

theorem moveAll_linked {s : CayPoint n p} {η y : Matrix n p ℝ} (h : Linked s η y) (l : List (Matrix n p ℝ)) :
    ∃ ms, moveAll s η y l = some (s, ms) ∧ (∀ m ∈ ms, m.Right) ∧ ms.map (·.ξ) = l := by
  induction l with
  | nil => exact ⟨[], rfl, by simp, rfl⟩
  | cons ξ l ih =>
    obtain ⟨ms, e, hm, hl⟩ := ih
    refine ⟨⟨s.x, η, y, ξ, cayleyTransport s.x η ξ⟩ :: ms, ?_, ?_, by simp [hl]⟩
    · simp only [moveAll, h.2 ξ, Option.bind_some, e, Option.map_some]
    · intro m hmem
      rcases List.mem_cons.mp hmem with rfl | hmem
      · exact ⟨h.1, rfl⟩
      · exact hm m hmem

theorem retracts_some (s : CayPoint n p) (l : List (Matrix n p ℝ)) : ∃ t, cayRun s (l.map .retract) = some t ∧ t.x = s.x := by
  induction l generalizing s with
  | nil => exact ⟨s, rfl, rfl⟩
  | cons η l ih =>
    obtain ⟨t, ht, hx⟩ := ih (⟨s.x, some ⟨mk2 s.x η, mk3 s.x η, lup s.x η, cayU s.x η⟩⟩ : CayPoint n p)
    exact ⟨t, by simpa [cayRun, cayStep] using ht, hx⟩

theorem tryStep_linked (s : LSPts n p) (t : ℝ × Bool) :
    ∃ s', tryStep s t = some s' ∧ Linked s'.x1 s'.η2 s'.x2.x ∧ s'.η1 = s.η1 ∧ s'.x1.x = s.x1.x := by
  obtain ⟨r, hr⟩ : ∃ r, cayStep s.x1 (.retract (t.1 • s.η1)) = some r := ⟨_, rfl⟩
  have hrun : cayRun s.x1 ([] ++ .retract (t.1 • s.η1) :: []) = some r.1 := by simp [cayRun, hr]
  have hx : r.1.x = s.x1.x ∧ r.2 = cayleyRetraction s.x1.x (t.1 • s.η1) := by
    simp only [cayStep, Option.some.injEq] at hr
    rw [← hr]
    exact ⟨rfl, rfl⟩
  have hl : Linked r.1 (t.1 • s.η1) r.2 :=
    ⟨by rw [hx.1]; exact hx.2, fun ξ => (C181_last_step [] [] _ (by simp) hrun _ ξ).1⟩
  by_cases ht : t.2
  · -- the derivative only reads the fields
    have hd : ∃ z, cayStep r.1 (.diff (t.1 • s.η1) s.η1) = some (r.1, z) := ⟨_, (C181_last_step [] [] _ (by simp) hrun 0 s.η1).2.2⟩
    obtain ⟨z, hz⟩ := hd
    exact ⟨⟨r.1, ⟨r.2, none⟩, s.η1, t.1 • s.η1⟩, by simp [tryStep, hr, ht, hz], hl, rfl, hx.1⟩
  · exact ⟨⟨r.1, ⟨r.2, none⟩, s.η1, t.1 • s.η1⟩, by simp [tryStep, hr, ht], hl, rfl, hx.1⟩

theorem tryAll_linked (s : LSPts n p) (t : ℝ × Bool) (l : List (ℝ × Bool)) :
    ∃ s', tryAll s (t :: l) = some s' ∧ Linked s'.x1 s'.η2 s'.x2.x := by
  induction l generalizing s t with
  | nil =>
    obtain ⟨s', e, h, _⟩ := tryStep_linked s t
    exact ⟨s', by simp [tryAll, e], h⟩
  | cons u l ih =>
    obtain ⟨s', e, _⟩ := tryStep_linked s t
    obtain ⟨s'', e', h⟩ := ih s' u
    refine ⟨s'', ?_, h⟩
    rw [tryAll, e]
    exact e'

theorem lsIter_linked (first : Bool) (s : LSPts n p) (h : first = false → Linked s.x2 s.η2 s.x1.x) (it : LSIter n p) :
    ∃ s' ms, lsIter first s it = some (s', ms) ∧ Linked s'.x2 s'.η2 s'.x1.x ∧ (∀ m ∈ ms, m.Right) ∧
      ms.map (·.ξ) = (if first then [] else it.bb) ++ it.upd := by
  obtain ⟨b, hb, hbm, hbl⟩ : ∃ b : List (Moved n p), (if first then some (s.x2, []) else moveAll s.x2 s.η2 s.x1.x it.bb) = some (s.x2, b) ∧ (∀ m ∈ b, m.Right) ∧
      b.map (·.ξ) = if first then [] else it.bb := by
    cases first with
    | true => exact ⟨[], rfl, by simp, rfl⟩
    | false => simpa using moveAll_linked (h rfl) it.bb
  obtain ⟨u, hu, _⟩ := retracts_some s.x1 it.user
  obtain ⟨t, ht, hlink⟩ := tryAll_linked ⟨u, s.x2, it.dir, s.η2⟩ it.trial it.trials
  obtain ⟨d, hd, hdm, hdl⟩ := moveAll_linked hlink it.upd
  obtain ⟨y, hy, hyx⟩ := retracts_some t.x2 it.stop
  refine ⟨⟨y, t.x1, t.η1, t.η2⟩, b ++ d, ?_, ?_, ?_, ?_⟩
  · simp only [lsIter, hb, hu, ht, hd, hy, Option.bind_some, Option.map_some]
  · simp only [hyx]; exact hlink
  · intro m hm
    rcases List.mem_append.mp hm with hm | hm
    · exact hbm m hm
    · exact hdm m hm
  · rw [List.map_append, hbl, hdl]

theorem lsRun_linked (its : List (LSIter n p)) (first : Bool) (s : LSPts n p) (h : first = false → Linked s.x2 s.η2 s.x1.x) :
    ∃ s' ms, lsRun first s its = some (s', ms) ∧ (∀ m ∈ ms, m.Right) ∧
      ms.map (·.ξ) = match its with
        | [] => []
        | it :: rest => (if first then [] else it.bb) ++ it.upd ++ rest.flatMap fun it => it.bb ++ it.upd := by
  induction its generalizing first s with
  | nil => exact ⟨s, [], rfl, by simp, rfl⟩
  | cons it its ih =>
    obtain ⟨s', ms, e, hl, hm, hx⟩ := lsIter_linked first s h it
    obtain ⟨s'', ms', e', hm', hx'⟩ := ih false s' fun _ => hl
    refine ⟨s'', ms ++ ms', ?_, ?_, ?_⟩
    · simp only [lsRun, e, Option.bind_some, e', Option.map_some]
    · intro m hmem
      rcases List.mem_append.mp hmem with hmem | hmem
      · exact hm m hmem
      · exact hm' m hmem
    · rw [List.map_append, hx, hx']
      cases its with
      | nil => simp
      | cons a l => simp

/-- **C183.** A run from any point object, with any directions, step sizes, line searches and user functions, has a result. Every transport in it, also those of the Barzilai-Borwein initial step after the two points
have been exchanged, is the Cayley transport along the step that leads from its first to its second point. The vectors transported are those the solver asked for, in order. -/
theorem C183_run (x x' : CayPoint n p) (η1 η2 : Matrix n p ℝ) (it : LSIter n p) (its : List (LSIter n p)) :
    ∃ s ms, lsRun true ⟨x, x', η1, η2⟩ (it :: its) = some (s, ms) ∧
      (∀ m ∈ ms, m.y = cayleyRetraction m.x m.η ∧ m.r = cayleyTransport m.x m.η m.ξ) ∧
      ms.map (·.ξ) = it.upd ++ its.flatMap fun it => it.bb ++ it.upd := by
  obtain ⟨s, ms, e, h, hx⟩ := lsRun_linked (it :: its) true ⟨x, x', η1, η2⟩ (by simp)
  exact ⟨s, ms, e, h, by simpa using hx⟩

/-- **C183.** Hence each of them takes a tangent vector to a tangent vector of the same length at the other point, if its first point has orthonormal columns and the step is tangent there. -/
theorem C183_isometric (x x' : CayPoint n p) (η1 η2 : Matrix n p ℝ) (it : LSIter n p) (its : List (LSIter n p)) (s : LSPts n p) (ms : List (Moved n p))
    (h : lsRun true ⟨x, x', η1, η2⟩ (it :: its) = some (s, ms)) (m : Moved n p) (hm : m ∈ ms) (hx : m.xᵀ * m.x = 1) (hη : IsTangent m.x m.η) (hξ : IsTangent m.x m.ξ) :
    m.yᵀ * m.y = 1 ∧ IsTangent m.y m.r ∧ frob m.r m.r = frob m.ξ m.ξ := by
  obtain ⟨s', ms', e, hr, _⟩ := C183_run x x' η1 η2 it its
  rw [h] at e
  cases e
  obtain ⟨hy, hr⟩ := hr m hm
  have h4 := C46_cayley_transport hx hη m.ξ m.ξ
  rw [hy, hr]
  exact ⟨(C36_cayley_retraction hx hη).1, h4.2.1 hξ, h4.1⟩

/-- Two iterations on the circle with two trials each, a derivative, a transport in `UpdateData` and one in the second initial step: three transports. -/
example : ∃ s ms, lsRun true (⟨⟨exX, none⟩, ⟨exX, none⟩, 0, 0⟩ : LSPts (Fin 2) (Fin 1))
    [⟨exEta, [], [], (2, false), [(1, true)], [exEta], []⟩, ⟨exEta, [exEta], [exEta], (1, true), [(1 / 2, false)], [exEta], [exEta]⟩] = some (s, ms) ∧ ms.length = 3 := by
  obtain ⟨s, ms, e, _, hx⟩ := C183_run (⟨exX, none⟩ : CayPoint (Fin 2) (Fin 1)) ⟨exX, none⟩ 0 0 ⟨exEta, [], [], (2, false), [(1, true)], [exEta], []⟩
    [⟨exEta, [exEta], [exEta], (1, true), [(1 / 2, false)], [exEta], [exEta]⟩]
  exact ⟨s, ms, e, by have := congrArg List.length hx; simpa using this⟩

end Verif.Stiefel
