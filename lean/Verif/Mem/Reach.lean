import Verif.Mem.Sim

/-! Lifting of the one-step lemmas to histories. -/

namespace Verif.Mem
variable {V : Type}

theorem run_append (s : State V) (l1 l2 : List (Op V)) :
    run s (l1 ++ l2) = (run s l1).bind fun s => run s l2 := by
  induction l1 generalizing s with
  | nil => rfl
  | cons op l1 ih =>
    simp only [List.cons_append, run]
    cases step s op with
    | ok s' => simpa [Out.bind] using ih s'
    | client => rfl
    | ub => rfl

theorem run_inv {s s' : State V} (hI : Inv s) (ops : List (Op V)) (h : run s ops = .ok s') : Inv s' := by
  induction ops generalizing s with
  | nil => simp only [run, Out.ok.injEq] at h; exact h ▸ hI
  | cons op ops ih =>
    simp only [run] at h
    rcases step_inv hI op with h1 | ⟨h1, -⟩ | ⟨s1, h1, h2⟩
    · simp [h1, Out.bind] at h
    · simp [h1, Out.bind] at h
    · rw [h1] at h; exact ih h2 h

theorem run_ub {s : State V} (hI : Inv s) (ops : List (Op V)) (h : run s ops = .ub) :
    ∃ pre op post s', ops = pre ++ op :: post ∧ run s pre = .ok s' ∧ TouchesDeleted s' op := by
  induction ops generalizing s with
  | nil => simp [run] at h
  | cons op ops ih =>
    simp only [run] at h
    rcases step_inv hI op with h1 | ⟨h1, h2⟩ | ⟨s1, h1, h2⟩
    · simp [h1, Out.bind] at h
    · exact ⟨[], op, ops, s, rfl, rfl, h2⟩
    · rw [h1] at h
      obtain ⟨pre, op', post, s', e1, e2, e3⟩ := ih h2 h
      refine ⟨op :: pre, op', post, s', by simp [e1], ?_, e3⟩
      simp only [run, h1]; exact e2

theorem run_sim {s s' : State V} {t : Vals V} (hI : Inv s) (hR : Refines s t) (ops : List (Op V))
    (hop : ∀ x ws, Op.rawStore x ws ∉ ops) (h : run s ops = .ok s') :
    ∃ t', srun t ops = some t' ∧ Refines s' t' := by
  induction ops generalizing s t with
  | nil => simp only [run, Out.ok.injEq] at h; exact ⟨t, rfl, h ▸ hR⟩
  | cons op ops ih =>
    simp only [run] at h
    have hop1 : ∀ x ws, op ≠ .rawStore x ws := fun x ws e => hop x ws (by simp [e])
    rcases step_inv hI op with h1 | ⟨h1, -⟩ | ⟨s1, h1, h2⟩
    · simp [h1, Out.bind] at h
    · simp [h1, Out.bind] at h
    · obtain ⟨t1, e1, e2⟩ := step_sim hI hR op hop1 h1
      rw [h1] at h
      obtain ⟨t', e3, e4⟩ := ih h2 e2 (fun x ws hm => hop x ws (by simp [hm])) h
      exact ⟨t', by simp [srun, e1, e3], e4⟩

theorem refines_empty : Refines (State.empty : State V) [] :=
  ⟨rfl, fun _ _ => by simp [State.empty, State.live], fun x v h => by simp [Vals.get] at h⟩

/-- No live object has lost its shape array. -/
def Shaped (s : State V) : Prop := ∀ x o, s.live x = some o → o.size ≠ []

theorem Shaped.frame {s s' : State V} {x : Nat} {o' : Obj} (h : Shaped s) (hF : Frame s s' x)
    (hl : s'.live x = some o') (ho : o'.size ≠ []) : Shaped s' := by
  intro z oz hz
  by_cases e : z = x
  · subst e; rw [hl] at hz
    obtain rfl : o' = oz := by simpa using hz
    exact ho
  · rw [hF.live z e] at hz; exact h z oz hz

theorem shaped_append {s : State V} (hS : Shaped s) (r c n : Nat) :
    Shaped ({ s with objs := s.objs ++ [some (initObj r c n)] } : State V) := by
  intro z oz hz
  have hz := live_eq hz
  by_cases e : z < s.objs.length
  · exact hS z oz (live_of (by rw [← hz]; exact (List.getElem?_append_left e).symm))
  · have hlt := (List.getElem?_eq_some_iff.1 hz).1
    have e' : z = s.objs.length := by simp at hlt; omega
    subst e'
    have : some (some (initObj r c n)) = some (some oz) := by rw [← hz]; simp
    obtain rfl : initObj r c n = oz := by simpa using this
    simp [initObj]

theorem step_shaped {s s' : State V} (hI : Inv s) (hS : Shaped s) (op : Op V)
    (hop : ∀ x, op ≠ .delete x) (h : step s op = .ok s') : Shaped s' := by
  cases op with
  | delete x => exact absurd rfl (hop x)
  | decl r c n =>
    simp only [step, Out.ok.injEq] at h
    exact h ▸ shaped_append hS r c n
  | copyNew x =>
    simp only [step] at h
    cases hl : s.live x with
    | none => simp [hl] at h
    | some o =>
      simp only [hl] at h
      split at h
      · rename_i r c n tl hsz
        obtain ⟨h1, h2, h3⟩ := append_spec hI r c n
        have hx := live_eq hl
        have hlt := (List.getElem?_eq_some_iff.1 hx).1
        obtain ⟨s'', h4, h5⟩ := copyTo_spec h1 ((h2 x hlt).trans hx) h3
        rw [h4] at h
        obtain rfl : s'' = s' := by simpa using h
        obtain ⟨o', g1, g2, g3⟩ := h5.live
        refine (shaped_append hS r c n).frame h5.frame g1 ?_
        rcases g3 with g3 | ⟨g3, -⟩
        · rw [g3, hsz]; simp
        · rw [g3]; simp [initObj]
      · simp at h
  | assign y x =>
    simp only [step] at h
    cases hl : s.live x with
    | none => simp [hl] at h
    | some src =>
      cases hl' : s.live y with
      | none => simp [hl, hl'] at h
      | some dst =>
        simp only [hl, hl'] at h
        obtain ⟨s'', h4, h5⟩ := copyTo_spec hI (live_eq hl) (live_eq hl')
        rw [h4] at h
        obtain rfl : s'' = s' := by simpa using h
        obtain ⟨o', g1, g2, g3⟩ := h5.live
        refine hS.frame h5.frame g1 ?_
        rcases g3 with g3 | ⟨g3, -⟩
        · rw [g3]; exact hS x src hl
        · rw [g3]; exact hS y dst hl'
  | writePartial x ws =>
    simp only [step] at h
    cases hl : s.live x with
    | none => simp [hl] at h
    | some o =>
      simp only [hl] at h
      split at h
      · obtain ⟨s1, d, h1, h2, h3, h4, -⟩ := copyOnWrite_spec hI (live_eq hl)
        obtain ⟨s'', p, h5, h6, h8, h9, h10⟩ := thenStore_spec h2 h3 h4 (writes_length ws)
        rw [h1, h5] at h
        obtain rfl : s'' = s' := by simpa using h
        exact hS.frame h8 h9 (hS x o hl)
      · simp at h
  | writeEntire x ws =>
    simp only [step] at h
    cases hl : s.live x with
    | none => simp [hl] at h
    | some o =>
      simp only [hl] at h
      split at h
      · obtain ⟨s1, d, h1, h2, h3, h4⟩ := newMemoryOnWrite_spec hI (live_eq hl)
        obtain ⟨s'', p, h5, h6, h8, h9, h10⟩ := thenStore_spec h2 h3 h4 (writes_length ws)
        rw [h1, h5] at h
        obtain rfl : s'' = s' := by simpa using h
        exact hS.frame h8 h9 (hS x o hl)
      · simp at h
  | fill x v =>
    simp only [step] at h
    cases hl : s.live x with
    | none => simp [hl] at h
    | some o =>
      simp only [hl] at h
      obtain ⟨s1, d, h1, h2, h3, h4⟩ := newMemoryOnWrite_spec hI (live_eq hl)
      obtain ⟨s'', p, h5, h6, h8, h9, h10⟩ := thenStore_spec (f := fun b => b.map fun _ => some v)
        h2 h3 h4 (by simp)
      rw [h1, h5] at h
      obtain rfl : s'' = s' := by simpa using h
      exact hS.frame h8 h9 (hS x o hl)
  | reshape x r c n =>
    simp only [step] at h
    cases hl : s.live x with
    | none => simp [hl] at h
    | some o =>
      simp only [hl] at h
      split at h
      · simp at h
      · split at h
        · rename_i e
          obtain ⟨h1, h2, h3⟩ := reshape_spec hI (live_eq hl) r c n e
          obtain rfl : _ = s' := by simpa using h
          exact hS.frame h2 (live_of h3) (by simp)
        · simp at h
  | rawStore x ws =>
    simp only [step] at h
    cases hl : s.live x with
    | none => simp [hl] at h
    | some o =>
      simp only [hl] at h
      split at h
      · rename_i e
        obtain ⟨p, hp⟩ := Option.ne_none_iff_exists'.1 e.1
        have hx := live_eq hl
        obtain ⟨-, b, hb⟩ := hI.heap.get (refs_pos hx ((hI.obj x o hx).pair.trans hp))
        obtain ⟨s'', h1, h2, -, h4, -⟩ := storeRaw_spec (f := writes ws) hI hx hp hb (writes_length ws b)
        rw [h1] at h
        obtain rfl : s'' = s' := by simpa using h
        intro z oz hz; rw [h4] at hz; exact hS z oz hz
      · simp at h
  | destroy x =>
    simp only [step] at h
    cases hl : s.live x with
    | none => simp [hl] at h
    | some o =>
      simp only [hl] at h
      obtain ⟨s'', h1, h2, h3, h4⟩ := destroy_spec hI (live_eq hl)
      rw [h1] at h
      obtain rfl : s'' = s' := by simpa using h
      intro z oz hz
      by_cases e : z = x
      · subst e; rw [h4] at hz; simp at hz
      · rw [h3.live z e] at hz; exact hS z oz hz

theorem run_shaped {s s' : State V} (hI : Inv s) (hS : Shaped s) (ops : List (Op V))
    (hop : ∀ x, Op.delete x ∉ ops) (h : run s ops = .ok s') : Shaped s' := by
  induction ops generalizing s with
  | nil => simp only [run, Out.ok.injEq] at h; exact h ▸ hS
  | cons op ops ih =>
    simp only [run] at h
    have hop1 : ∀ x, op ≠ .delete x := fun x e => hop x (by simp [e])
    rcases step_inv hI op with h1 | ⟨h1, -⟩ | ⟨s1, h1, h2⟩
    · simp [h1, Out.bind] at h
    · simp [h1, Out.bind] at h
    · have := step_shaped hI hS op hop1 h1
      rw [h1] at h
      exact ih h2 this (fun x hm => hop x (by simp [hm])) h

end Verif.Mem
