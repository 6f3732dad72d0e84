import Verif.Mem.Inv
import Verif.Mem.Spec

/-! Simulation lemmas: each operation of the heap model against the deep-copy specification. -/

namespace Verif.Mem
variable {V : Type}

theorem writes_length (ws : List (Nat × V)) (b : List (Option V)) : (writes ws b).length = b.length := by
  unfold writes
  induction ws generalizing b with
  | nil => rfl
  | cons w ws ih => simp [List.foldl_cons, ih]

theorem writes_get (ws : List (Nat × V)) (b : List (Option V)) (i : Nat) (hi : i < b.length) :
    (writes ws b)[i]? = match lastWrite ws i with
      | some v => some (some v)
      | none => b[i]? := by
  unfold writes
  induction ws generalizing b with
  | nil => rfl
  | cons w ws ih =>
    rw [List.foldl_cons, ih _ (by simpa using hi)]
    simp only [lastWrite]
    cases h : lastWrite ws i with
    | some v => rfl
    | none =>
      by_cases e : w.1 = i
      · subst e; simp [hi]
      · simp [e, List.getElem?_set_ne e]

/-- Operations that dereference the null shape array of a deleted object. -/
def TouchesDeleted (s : State V) : Op V → Prop
  | .copyNew x => ∃ o, s.live x = some o ∧ o.size = []
  | .reshape x _ _ _ => ∃ o, s.live x = some o ∧ o.size = []
  | _ => False

theorem inv_empty : Inv (State.empty : State V) := by
  refine ⟨⟨?_, ?_, ?_⟩, ?_⟩ <;> intros <;> simp_all [State.empty, refs]

/-- Appending a fresh object without storage. -/
theorem append_spec {s : State V} (hI : Inv s) (r c n : Nat) :
    Inv { s with objs := s.objs ++ [some (initObj r c n)] } ∧
    (∀ x, x < s.objs.length → ({ s with objs := s.objs ++ [some (initObj r c n)] } : State V).objs[x]?
      = s.objs[x]?) ∧
    ({ s with objs := s.objs ++ [some (initObj r c n)] } : State V).objs[s.objs.length]?
      = some (some (initObj r c n)) := by
  have h1 : ∀ x, x < s.objs.length →
      ({ s with objs := s.objs ++ [some (initObj r c n)] } : State V).objs[x]? = s.objs[x]? := by
    intro x hx; exact List.getElem?_append_left hx
  have h2 : ({ s with objs := s.objs ++ [some (initObj r c n)] } : State V).objs[s.objs.length]?
      = some (some (initObj r c n)) := by simp
  refine ⟨⟨?_, ?_⟩, h1, h2⟩
  · refine HeapOk.congr (k := refs s.objs) ⟨hI.heap.cnt, hI.heap.buf, hI.heap.fresh⟩ ?_
    intro a; simp [refs, List.countP_append, initObj]
  · intro x o hx
    by_cases e : x < s.objs.length
    · rw [h1 x e] at hx
      have h0 := hI.obj x o hx
      exact ⟨h0.pair, h0.len, h0.shape⟩
    · by_cases e' : x = s.objs.length
      · rw [e', h2] at hx
        obtain rfl : _ = o := by simpa using hx
        exact ⟨rfl, by simp [initObj], Or.inr ⟨r, c, n, rfl, rfl⟩⟩
      · have : ({ s with objs := s.objs ++ [some (initObj r c n)] } : State V).objs[x]? = none := by
          apply List.getElem?_eq_none; simp; omega
        rw [this] at hx; simp at hx

theorem reshape_spec {s : State V} {x : Nat} {o : Obj} (hI : Inv s) (hx : s.objs[x]? = some (some o))
    (r c n : Nat) (h : r * c * n = o.length) :
    Inv (s.setObj x { o with size := [r, c, n] }) ∧ Frame s (s.setObj x { o with size := [r, c, n] }) x ∧
      (s.setObj x { o with size := [r, c, n] }).objs[x]? = some (some { o with size := [r, c, n] }) := by
  have h0 := hI.obj x o hx
  refine setObj_spec (s := s) (some { o with size := [r, c, n] }) hI hx rfl hI.heap (by simp)
    (fun _ _ _ _ _ _ => rfl) ?_
  intro w hw
  obtain rfl : _ = w := by simpa using hw
  refine ⟨h0.pair, h0.len, Or.inr ⟨r, c, n, rfl, ?_⟩⟩
  simp [shapeLen, ← h, Nat.mul_assoc]

/-! ### Values -/

theorem get_lt {t : Vals V} {x : Nat} {v : Val V} (h : t.get x = some v) : x < t.length := by
  unfold Vals.get at h
  split at h
  · exact (List.getElem?_eq_some_iff.1 (by assumption)).1
  · simp at h

theorem get_set_self {t : Vals V} {x : Nat} (w : Option (Val V)) (h : x < t.length) :
    Vals.get (t.set x w) x = w := by
  cases w <;> simp [Vals.get, h]

theorem get_set_ne {t : Vals V} {x z : Nat} (w : Option (Val V)) (h : z ≠ x) :
    Vals.get (t.set x w) z = t.get z := by
  simp [Vals.get, List.getElem?_set_ne (Ne.symm h)]

theorem Shows.frame {s s' : State V} {x z : Nat} {v : Val V} (h : Shows s z v) (hF : Frame s s' x)
    (hz : z ≠ x) : Shows s' z v := by
  obtain ⟨h1, h2, h3⟩ := h
  refine ⟨?_, ?_, ?_⟩
  · rw [hF.live z hz]; exact h1
  · rw [hF.contents z hz]; exact h2
  · rw [hF.contents z hz]; exact h3

/-- Updating one object on both sides. -/
theorem Refines.update {s s' : State V} {t : Vals V} {x : Nat} (hR : Refines s t) (hF : Frame s s' x)
    (hx : x < t.length) (w : Val V) (hw : Shows s' x w) : Refines s' (t.set x (some w)) := by
  refine ⟨by rw [hF.len, hR.count]; simp, ?_, ?_⟩
  · intro z hz
    by_cases e : z = x
    · subst e; rw [get_set_self _ hx] at hz; simp at hz
    · rw [get_set_ne _ e] at hz
      rw [hF.live z e]; exact hR.dead z hz
  · intro z v hz
    by_cases e : z = x
    · subst e; rw [get_set_self _ hx] at hz
      obtain rfl : w = v := by simpa using hz
      exact hw
    · rw [get_set_ne _ e] at hz
      exact (hR.shows_ z v hz).frame hF e

theorem Refines.val {s : State V} {t : Vals V} {x : Nat} {o : Obj} (hR : Refines s t)
    (hx : s.live x = some o) : ∃ v, t.get x = some v ∧ x < t.length ∧ Shows s x v ∧ o.length = v.length := by
  cases h : t.get x with
  | none => rw [hR.dead x h] at hx; simp at hx
  | some v =>
    have hS := hR.shows_ x v h
    obtain ⟨o', h1, h2⟩ := hS.len
    rw [hx] at h1
    obtain rfl : o = o' := by simpa using h1
    exact ⟨v, rfl, get_lt h, hS, h2⟩

/-- After a write accessor and stores. -/
theorem shows_store {s' : State V} {x : Nat} {o o' : Obj} {v : Val V} {b : List (Option V)}
    {d : Nat → Option V} (hl : s'.live x = some o') (ho : o'.length = o.length)
    (hv : o.length = v.length) (hc : s'.contents x = some b) (hb : b.length = v.length)
    (he : ∀ i a, i < v.length → d i = some a → b[i]? = some (some a)) :
    Shows s' x { v with data := some d } := by
  refine ⟨⟨o', hl, by simp [ho, hv]⟩, by simp, ?_⟩
  intro d' hd'
  obtain rfl : d = d' := by simpa using hd'
  exact ⟨b, hc, hb, he⟩

/-- One step never hits undefined behaviour except on a deleted shape, and keeps the invariant. -/
theorem step_inv {s : State V} (hI : Inv s) (op : Op V) :
    step s op = .client ∨ (step s op = .ub ∧ TouchesDeleted s op) ∨
      ∃ s', step s op = .ok s' ∧ Inv s' := by
  cases op with
  | decl r c n => exact Or.inr (Or.inr ⟨_, rfl, (append_spec hI r c n).1⟩)
  | copyNew x =>
    simp only [step]
    cases h : s.live x with
    | none => exact Or.inl rfl
    | some o =>
      have hx := live_eq h
      rcases (hI.obj x o hx).shape with ⟨e, -⟩ | ⟨r, c, n, e, -⟩
      · exact Or.inr (Or.inl ⟨by simp [e], o, h, e⟩)
      · obtain ⟨h1, h2, h3⟩ := append_spec hI r c n
        have hlt := (List.getElem?_eq_some_iff.1 hx).1
        obtain ⟨s', h4, h5⟩ := copyTo_spec h1 ((h2 x hlt).trans hx) h3
        refine Or.inr (Or.inr ⟨s', ?_, h5.inv⟩)
        simp only [e]; exact h4
  | assign y x =>
    simp only [step]
    cases h : s.live x with
    | none => exact Or.inl rfl
    | some src =>
      cases h' : s.live y with
      | none => exact Or.inl rfl
      | some dst =>
        obtain ⟨s', h4, h5⟩ := copyTo_spec hI (live_eq h) (live_eq h')
        exact Or.inr (Or.inr ⟨s', h4, h5.inv⟩)
  | writePartial x ws =>
    simp only [step]
    cases h : s.live x with
    | none => exact Or.inl rfl
    | some o =>
      simp only
      split
      · obtain ⟨s1, d, h1, h2, h3, h4, -⟩ := copyOnWrite_spec hI (live_eq h)
        obtain ⟨s', p, h5, h6, -⟩ := thenStore_spec h2 h3 h4 (writes_length ws)
        rw [h1]; exact Or.inr (Or.inr ⟨s', h5, h6⟩)
      · exact Or.inl rfl
  | writeEntire x ws =>
    simp only [step]
    cases h : s.live x with
    | none => exact Or.inl rfl
    | some o =>
      simp only
      split
      · obtain ⟨s1, d, h1, h2, h3, h4⟩ := newMemoryOnWrite_spec hI (live_eq h)
        obtain ⟨s', p, h5, h6, -⟩ := thenStore_spec h2 h3 h4 (writes_length ws)
        rw [h1]; exact Or.inr (Or.inr ⟨s', h5, h6⟩)
      · exact Or.inl rfl
  | fill x v =>
    simp only [step]
    cases h : s.live x with
    | none => exact Or.inl rfl
    | some o =>
      obtain ⟨s1, d, h1, h2, h3, h4⟩ := newMemoryOnWrite_spec hI (live_eq h)
      obtain ⟨s', p, h5, h6, -⟩ := thenStore_spec (f := fun b => b.map fun _ => some v) h2 h3 h4
        (by simp)
      simp only [h1]; exact Or.inr (Or.inr ⟨s', h5, h6⟩)
  | reshape x r c n =>
    simp only [step]
    cases h : s.live x with
    | none => exact Or.inl rfl
    | some o =>
      simp only
      split
      · rename_i e; exact Or.inr (Or.inl ⟨rfl, o, h, e⟩)
      · split
        · rename_i e; exact Or.inr (Or.inr ⟨_, rfl, (reshape_spec hI (live_eq h) r c n e).1⟩)
        · exact Or.inl rfl
  | rawStore x ws =>
    simp only [step]
    cases h : s.live x with
    | none => exact Or.inl rfl
    | some o =>
      simp only
      split
      · rename_i e
        obtain ⟨p, hp⟩ := Option.ne_none_iff_exists'.1 e.1
        have hx := live_eq h
        obtain ⟨-, b, hb⟩ := hI.heap.get (refs_pos hx ((hI.obj x o hx).pair.trans hp))
        obtain ⟨s', h1, h2, -⟩ := storeRaw_spec (f := writes ws) hI hx hp hb (writes_length ws b)
        exact Or.inr (Or.inr ⟨s', h1, h2⟩)
      · exact Or.inl rfl
  | delete x =>
    simp only [step]
    cases h : s.live x with
    | none => exact Or.inl rfl
    | some o =>
      obtain ⟨s', h1, h2, -⟩ := delete_spec hI (live_eq h)
      exact Or.inr (Or.inr ⟨s', h1, h2⟩)
  | destroy x =>
    simp only [step]
    cases h : s.live x with
    | none => exact Or.inl rfl
    | some o =>
      obtain ⟨s', h1, h2, -⟩ := destroy_spec hI (live_eq h)
      exact Or.inr (Or.inr ⟨s', h1, h2⟩)

theorem shows_assigned {s s' : State V} {x y : Nat} {src dst : Obj} {v : Val V}
    (hA : Assigned s s' src dst x y) (hS : Shows s x v) (hl : s.live x = some src) : Shows s' y v := by
  obtain ⟨o', h1, h2, -⟩ := hA.live
  obtain ⟨o, h3, h4⟩ := hS.len
  rw [hl] at h3
  obtain rfl : src = o := by simpa using h3
  refine ⟨⟨o', h1, by omega⟩, ?_, ?_⟩
  · rw [hA.contents]; exact hS.empty
  · rw [hA.contents]; exact hS.entries

theorem data_none_iff {s : State V} {x : Nat} {v : Val V} (hS : Shows s x v) :
    v.data = none ↔ s.contents x = none := by
  constructor
  · exact hS.empty
  · intro h
    cases hd : v.data with
    | none => rfl
    | some d =>
      obtain ⟨b, hb, -⟩ := hS.entries d hd
      rw [h] at hb; simp at hb

/-- One step of the heap model is matched by the deep-copy specification. -/
theorem step_sim {s s' : State V} {t : Vals V} (hI : Inv s) (hR : Refines s t) (op : Op V)
    (hop : ∀ x ws, op ≠ .rawStore x ws) (hs : step s op = .ok s') :
    ∃ t', sstep t op = some t' ∧ Refines s' t' := by
  cases op with
  | rawStore x ws => exact absurd rfl (hop x ws)
  | decl r c n =>
    simp only [step, Out.ok.injEq] at hs
    subst hs
    obtain ⟨h1, h2, h3⟩ := append_spec hI r c n
    refine ⟨_, rfl, ⟨by simp [hR.count], ?_, ?_⟩⟩
    · intro x hx
      by_cases e : x < s.objs.length
      · have : t.get x = none := by
          have e' : x < t.length := by have := hR.count; omega
          simpa [Vals.get, List.getElem?_append_left e'] using hx
        have h4 := hR.dead x this
        simp only [State.live, h2 x e]; exact h4
      · by_cases e' : x = s.objs.length
        · exfalso; rw [e', hR.count] at hx; simp [Vals.get] at hx
        · have : ({ s with objs := s.objs ++ [some (initObj r c n)] } : State V).objs[x]? = none := by
            apply List.getElem?_eq_none; simp; omega
          simp only [State.live, this]
    · intro x v hx
      by_cases e : x < s.objs.length
      · have hg : t.get x = some v := by
          have e' : x < t.length := by have := hR.count; omega
          simpa [Vals.get, List.getElem?_append_left e'] using hx
        obtain ⟨g1, g2, g3⟩ := hR.shows_ x v hg
        have hl : ({ s with objs := s.objs ++ [some (initObj r c n)] } : State V).live x = s.live x := by
          simp only [State.live, h2 x e]
        have hc : ({ s with objs := s.objs ++ [some (initObj r c n)] } : State V).contents x = s.contents x := by
          simp only [State.contents, hl]
        exact ⟨by rw [hl]; exact g1, by rw [hc]; exact g2, by rw [hc]; exact g3⟩
      · have e' : x = s.objs.length := by
          have := get_lt hx; simp at this; have := hR.count; omega
        have hv : v = ⟨[r, c, n], r * c * n, none⟩ := by
          rw [e', hR.count] at hx; simp [Vals.get] at hx; exact hx.symm
        subst hv; subst e'
        refine ⟨⟨_, live_of h3, by simp [initObj, shapeLen, Nat.mul_assoc]⟩, ?_, by simp⟩
        intro _; rw [contents_eq h3]; rfl
  | copyNew x =>
    simp only [step] at hs
    cases h : s.live x with
    | none => simp [h] at hs
    | some o =>
      simp only [h] at hs
      have hx := live_eq h
      have hlt := (List.getElem?_eq_some_iff.1 hx).1
      obtain ⟨v, hv, hvl, hS, hol⟩ := hR.val h
      split at hs
      · rename_i r c n tl hsz
        obtain ⟨h1, h2, h3⟩ := append_spec hI r c n
        obtain ⟨s'', h4, h5⟩ := copyTo_spec h1 ((h2 x hlt).trans hx) h3
        rw [h4] at hs
        obtain rfl : s'' = s' := by simpa using hs
        have hl0 : ∀ z, z < s.objs.length →
            ({ s with objs := s.objs ++ [some (initObj r c n)] } : State V).live z = s.live z := by
          intro z hz; simp only [State.live, h2 z hz]
        have hlive : ({ s with objs := s.objs ++ [some (initObj r c n)] } : State V).live x = some o := by
          rw [hl0 x hlt]; exact h
        have hS1 : Shows ({ s with objs := s.objs ++ [some (initObj r c n)] } : State V) x v := by
          obtain ⟨g1, g2, g3⟩ := hS
          have hc : ({ s with objs := s.objs ++ [some (initObj r c n)] } : State V).contents x
              = s.contents x := by simp only [State.contents, hl0 x hlt]
          exact ⟨by rw [hl0 x hlt]; exact g1, by rw [hc]; exact g2, by rw [hc]; exact g3⟩
        refine ⟨t ++ [some v], by simp [sstep, hv], ⟨?_, ?_, ?_⟩⟩
        · rw [h5.frame.len]; simp [hR.count]
        · intro z hz
          by_cases e : z < s.objs.length
          · rw [h5.frame.live z (by omega), hl0 z e]
            apply hR.dead
            have e' : z < t.length := by have := hR.count; omega
            simpa [Vals.get, List.getElem?_append_left e'] using hz
          · by_cases e' : z = s.objs.length
            · exfalso; rw [e', hR.count] at hz; simp [Vals.get] at hz
            · have : s''.objs[z]? = none := by
                apply List.getElem?_eq_none; rw [h5.frame.len]; simp; omega
              simp only [State.live, this]
        · intro z w hz
          by_cases e : z < s.objs.length
          · have hg : t.get z = some w := by
              have e' : z < t.length := by have := hR.count; omega
              simpa [Vals.get, List.getElem?_append_left e'] using hz
            refine Shows.frame ?_ h5.frame (by omega)
            obtain ⟨g1, g2, g3⟩ := hR.shows_ z w hg
            have hc : ({ s with objs := s.objs ++ [some (initObj r c n)] } : State V).contents z
                = s.contents z := by simp only [State.contents, hl0 z e]
            exact ⟨by rw [hl0 z e]; exact g1, by rw [hc]; exact g2, by rw [hc]; exact g3⟩
          · have e' : z = s.objs.length := by
              have := get_lt hz; simp at this; have := hR.count; omega
            have hw : w = v := by
              rw [e', hR.count] at hz; simp [Vals.get] at hz; exact hz.symm
            subst hw; subst e'
            exact shows_assigned h5 hS1 hlive
      · simp at hs
  | assign y x =>
    simp only [step] at hs
    cases h : s.live x with
    | none => simp [h] at hs
    | some src =>
      cases h' : s.live y with
      | none => simp [h, h'] at hs
      | some dst =>
        simp only [h, h'] at hs
        obtain ⟨s'', h4, h5⟩ := copyTo_spec hI (live_eq h) (live_eq h')
        rw [h4] at hs
        obtain rfl : s'' = s' := by simpa using hs
        obtain ⟨v, hv, hvl, hS, hol⟩ := hR.val h
        obtain ⟨w, hw, hwl, -, -⟩ := hR.val h'
        exact ⟨t.set y (some v), by simp [sstep, hv, hw],
          hR.update h5.frame hwl v (shows_assigned h5 hS h)⟩
  | writePartial x ws =>
    simp only [step] at hs
    cases h : s.live x with
    | none => simp [h] at hs
    | some o =>
      simp only [h] at hs
      split at hs
      · obtain ⟨s1, d, h1, h2, h3, h4, h7⟩ := copyOnWrite_spec hI (live_eq h)
        obtain ⟨s'', p, h5, h6, h8, h9, h10⟩ := thenStore_spec h2 h3 h4 (writes_length ws)
        rw [h1, h5] at hs
        obtain rfl : s'' = s' := by simpa using hs
        obtain ⟨v, hv, hvl, hS, hol⟩ := hR.val h
        refine ⟨_, by simp only [sstep, hv]; rfl, hR.update h8 hvl _ ?_⟩
        refine shows_store (o := o) h9 rfl hol h10 (by rw [writes_length, h4.len, hol]) ?_
        intro i a hi ha
        have hi' : i < d.length := by rw [h4.len]; omega
        rw [writes_get _ _ _ hi']
        simp only [overwrite] at ha
        cases hl : lastWrite ws i with
        | some a' => simp [hl] at ha; simp [ha]
        | none =>
          simp only [hl] at ha
          cases hd : v.data with
          | none => simp [hd] at ha
          | some d0 =>
            obtain ⟨b, hb1, hb2, hb3⟩ := hS.entries d0 hd
            have : d = b := by rw [h7, hb1]; rfl
            rw [this]
            exact hb3 i a hi (by simpa [hd] using ha)
      · simp at hs
  | writeEntire x ws =>
    simp only [step] at hs
    cases h : s.live x with
    | none => simp [h] at hs
    | some o =>
      simp only [h] at hs
      split at hs
      · obtain ⟨s1, d, h1, h2, h3, h4⟩ := newMemoryOnWrite_spec hI (live_eq h)
        obtain ⟨s'', p, h5, h6, h8, h9, h10⟩ := thenStore_spec h2 h3 h4 (writes_length ws)
        rw [h1, h5] at hs
        obtain rfl : s'' = s' := by simpa using hs
        obtain ⟨v, hv, hvl, hS, hol⟩ := hR.val h
        refine ⟨_, by simp only [sstep, hv]; rfl, hR.update h8 hvl _ ?_⟩
        refine shows_store (o := o) h9 rfl hol h10 (by rw [writes_length, h4.len, hol]) ?_
        intro i a hi ha
        have hi' : i < d.length := by rw [h4.len]; omega
        rw [writes_get _ _ _ hi']
        simp only [overwrite] at ha
        cases hl : lastWrite ws i with
        | some a' => simp [hl] at ha; simp [ha]
        | none => simp [hl] at ha
      · simp at hs
  | fill x a0 =>
    simp only [step] at hs
    cases h : s.live x with
    | none => simp [h] at hs
    | some o =>
      simp only [h] at hs
      obtain ⟨s1, d, h1, h2, h3, h4⟩ := newMemoryOnWrite_spec hI (live_eq h)
      obtain ⟨s'', p, h5, h6, h8, h9, h10⟩ := thenStore_spec (f := fun b => b.map fun _ => some a0)
        h2 h3 h4 (by simp)
      rw [h1, h5] at hs
      obtain rfl : s'' = s' := by simpa using hs
      obtain ⟨v, hv, hvl, hS, hol⟩ := hR.val h
      refine ⟨_, by simp only [sstep, hv]; rfl, hR.update h8 hvl _ ?_⟩
      refine shows_store (o := o) h9 rfl hol h10 (by rw [List.length_map, h4.len, hol]) ?_
      intro i a hi ha
      have hi' : i < d.length := by rw [h4.len]; omega
      obtain rfl : a0 = a := by simpa using ha
      simp [hi']
  | reshape x r c n =>
    simp only [step] at hs
    cases h : s.live x with
    | none => simp [h] at hs
    | some o =>
      simp only [h] at hs
      split at hs
      · simp at hs
      · split at hs
        · rename_i e
          obtain ⟨h1, h2, h3⟩ := reshape_spec hI (live_eq h) r c n e
          obtain rfl : _ = s' := by simpa using hs
          obtain ⟨v, hv, hvl, hS, hol⟩ := hR.val h
          refine ⟨_, by simp only [sstep, hv]; rfl, hR.update h2 hvl _ ?_⟩
          have hc : (s.setObj x { o with size := [r, c, n] }).contents x = s.contents x := by
            rw [contents_eq h3, contents_eq (live_eq h)]; rfl
          exact ⟨⟨_, live_of h3, hol⟩, by rw [hc]; exact hS.empty, by rw [hc]; exact hS.entries⟩
        · simp at hs
  | delete x =>
    simp only [step] at hs
    cases h : s.live x with
    | none => simp [h] at hs
    | some o =>
      simp only [h] at hs
      obtain ⟨s'', h1, h2, h3, h4⟩ := delete_spec hI (live_eq h)
      rw [h1] at hs
      obtain rfl : s'' = s' := by simpa using hs
      obtain ⟨v, hv, hvl, hS, hol⟩ := hR.val h
      refine ⟨_, by simp only [sstep, hv]; rfl, hR.update h3 hvl _ ?_⟩
      refine ⟨⟨_, h4, rfl⟩, ?_, by simp⟩
      intro _; simp [State.contents, h4]
  | destroy x =>
    simp only [step] at hs
    cases h : s.live x with
    | none => simp [h] at hs
    | some o =>
      simp only [h] at hs
      obtain ⟨s'', h1, h2, h3, h4⟩ := destroy_spec hI (live_eq h)
      rw [h1] at hs
      obtain rfl : s'' = s' := by simpa using hs
      obtain ⟨v, hv, hvl, hS, hol⟩ := hR.val h
      refine ⟨t.set x none, by simp [sstep, hv], ⟨?_, ?_, ?_⟩⟩
      · rw [h3.len, hR.count]; simp
      · intro z hz
        by_cases e : z = x
        · subst e; exact h4
        · rw [get_set_ne _ e] at hz
          rw [h3.live z e]; exact hR.dead z hz
      · intro z w hz
        by_cases e : z = x
        · subst e; rw [get_set_self _ hvl] at hz; simp at hz
        · rw [get_set_ne _ e] at hz
          exact (hR.shows_ z w hz).frame h3 e

end Verif.Mem
