import Mathlib.Data.List.Forall2
import Mathlib.Logic.Function.Basic
import Mathlib.Order.Defs.LinearOrder
import Verif.Mem.Reach

/-!
# Operands that overlap with the target of an in-place operation

An in-place operation of `Element` (`AlphaXaddThis`, `Element.cpp:1641-1658`; `AlphaABaddBetaThis`, `Element.cpp:1675-1749`) asks its operands for their read pointers
first, then asks the target for a write pointer, and then calls BLAS with these pointers. Asking for the write pointer (`SmartSpace::ObtainWritePartialData`,
`SmartSpace.cpp:175-179`, reached through `Element::CopyOnWrite`, `Element.h`) deletes the attached fields of the target (`Element.cpp:2651-2690`, `RemoveAllFromFields`,
`Element.cpp:2827-2841`) and moves the target to a buffer of its own if somebody shares its buffer.

Second part: `x = x.Field("a")`, the assignment whose source is one of the fields of its target (`Element::Field` returns a reference, `Element.cpp:2800-2814`).
-/

namespace Verif.Mem
variable {V : Type}

/-- `Element::RemoveAllFromFields` (`Element.cpp:2827-2841`): the destructor of every attached field runs. The fields (of the element and of its components, and the
fields attached to them) are objects of their own and are given by their names. -/
def destroyAll (s : State V) : List Name → Out (State V)
  | [] => .ok s
  | z :: zs =>
    match s.live z with
    | none => .client
    | some o => (destroy s z o).bind fun s => destroyAll s zs

/-- The pointers `A.ObtainReadData()` of the operands (`Element.cpp:1644, 1680-1681`); an operand without data is the mistake of the caller. -/
def readPtrs (s : State V) : List Name → Option (List Addr)
  | [] => some []
  | g :: gs =>
    match s.live g with
    | none => none
    | some o =>
      match o.space, readPtrs s gs with
      | some p, some ps => some (p :: ps)
      | _, _ => none

/-- Reading the buffers behind pointers; `none` if one of them has been freed. -/
def readBufs (s : State V) : List Addr → Option (List (List (Option V)))
  | [] => some []
  | p :: ps =>
    match s.bufs p, readBufs s ps with
    | some b, some bs => some (b :: bs)
    | _, _ => none

/-- `x.Op(args)` for an in-place operation: `F` is what BLAS computes from the operands and the old entries of the target. `strict`: the BLAS routine does not allow
an operand to overlap with the output (`gemm_`); `axpy_` with both vectors equal is elementwise and allowed (`strict = false`). `del` are the attached fields of `x`.
`AlphaXaddThis` (`Element.cpp:1641-1648`), `AlphaABaddBetaThis` (`Element.cpp:1675-1711`). Simplification: the shapes are those the call needs (asserted by the
code), hence `F` keeps the number of entries. -/
def inplace (s : State V) (x : Name) (args del : List Name) (strict : Bool)
    (F : List (List (Option V)) → List (Option V) → List (Option V)) : Out (State V) :=
  match readPtrs s args with
  | none => .client
  | some ps =>
    (destroyAll s del).bind fun s =>
      match s.live x with
      | none => .client
      | some o =>
        (copyOnWrite s x o).bind fun s =>
          match s.live x with
          | none => .client
          | some o =>
            match readBufs s ps with
            | none => .ub                                            -- BLAS reads a freed buffer
            | some bs =>
              if strict = true ∧ ∃ p ∈ ps, o.space = some p then .ub  -- operand overlaps with the output
              else storeRaw s o (F bs)

/-! ## Lemmas -/

/-- What is left after the fields have been deleted. -/
structure Left (s s' : State V) (del : List Name) : Prop where
  inv : Inv s'
  live : ∀ z, z ∉ del → s'.live z = s.live z
  dead : ∀ z, z ∈ del → s'.live z = none
  contents : ∀ z, z ∉ del → s'.contents z = s.contents z
  next : s'.next = s.next

theorem freePair_next {s s' : State V} {c : Addr} {p : Option Addr} (h : freePair s c p = .ok s') : s'.next = s.next := by
  unfold freePair at h
  split at h
  · cases h
  · split at h
    · rw [← Out.ok.inj h]
    · split at h
      · cases h
      · rw [← Out.ok.inj h]

theorem destroy_next {s s' : State V} {x : Name} {o : Obj} (h : destroy s x o = .ok s') : s'.next = s.next := by
  unfold destroy at h
  cases hr : release s o with
  | client => rw [hr] at h; cases h
  | ub => rw [hr] at h; cases h
  | ok s1 =>
    rw [hr] at h
    have h1 : s1.next = s.next := by
      unfold release at hr
      split at hr
      · rw [← Out.ok.inj hr]
      · split at hr
        · cases hr
        · simp only at hr
          split at hr
          · have := freePair_next hr; exact this
          · rw [← Out.ok.inj hr]
    rw [← Out.ok.inj h]; exact h1

/-- The write accessor leaves everything as it is or moves the target to a new buffer. -/
theorem copyOnWrite_new {s s' : State V} {x : Name} {o o' : Obj} (hx : s.live x = some o) (h : copyOnWrite s x o = .ok s')
    (hx' : s'.live x = some o') : s' = s ∨ o'.space = some s.next := by
  have hset : ∀ (t : State V) (data : List (Option V)), t.objs = s.objs → t.next = s.next → s' = allocFor t x o data → o'.space = some s.next := by
    intro t data ho hn e
    have hlt := (List.getElem?_eq_some_iff.1 (live_eq hx)).1
    have : s'.live x = some { o with cnt := some t.next, space := some t.next } := by
      rw [e]
      simp [State.live, allocFor, State.setObj, ho, hlt]
    rw [this] at hx'
    rw [← Option.some.inj hx', ← hn]
  unfold copyOnWrite at h
  split at h
  · exact Or.inr (hset s _ rfl rfl (Out.ok.inj h).symm)
  · split at h
    · cases h
    · split at h
      · split at h
        · cases h
        · split at h
          · cases h
          · split at h
            · cases h
            · exact Or.inr (hset _ _ (by rfl) (by rfl) (Out.ok.inj h).symm)
      · exact Or.inl (Out.ok.inj h).symm

theorem forall₂_left {α β : Type} {R : α → β → Prop} {l : List α} {m : List β} (h : List.Forall₂ R l m) {a : α} (ha : a ∈ l) :
    ∃ b ∈ m, R a b := by
  induction h with
  | nil => simp at ha
  | @cons a' b' l m h1 _ ih =>
    rcases List.mem_cons.1 ha with e | h'
    · exact ⟨b', by simp, e ▸ h1⟩
    · obtain ⟨b, hb, hr⟩ := ih h'; exact ⟨b, by simp [hb], hr⟩

theorem forall₂_right {α β : Type} {R : α → β → Prop} {l : List α} {m : List β} (h : List.Forall₂ R l m) {b : β} (hb : b ∈ m) :
    ∃ a ∈ l, R a b := by
  induction h with
  | nil => simp at hb
  | @cons a' b' l m h1 _ ih =>
    rcases List.mem_cons.1 hb with e | h'
    · exact ⟨a', by simp, e ▸ h1⟩
    · obtain ⟨b, hb, hr⟩ := ih h'; exact ⟨b, by simp [hb], hr⟩

theorem destroyAll_spec : ∀ (del : List Name) (s : State V), Inv s → del.Nodup → (∀ z ∈ del, ∃ o, s.live z = some o) →
    ∃ s', destroyAll s del = .ok s' ∧ Left s s' del
  | [], s, hI, _, _ => ⟨s, rfl, hI, fun _ _ => rfl, fun _ h => absurd h (by simp), fun _ _ => rfl, rfl⟩
  | z :: zs, s, hI, hn, hl => by
    obtain ⟨o, ho⟩ := hl z (by simp)
    obtain ⟨s1, h1, h2, h3, h4⟩ := destroy_spec hI (live_eq ho)
    have hn' := List.nodup_cons.1 hn
    have hne : ∀ w ∈ zs, w ≠ z := fun w hw e => hn'.1 (e ▸ hw)
    obtain ⟨s2, h5, h6⟩ := destroyAll_spec zs s1 h2 hn'.2 (fun w hw => by
      obtain ⟨o', ho'⟩ := hl w (by simp [hw])
      exact ⟨o', by rw [h3.live w (hne w hw)]; exact ho'⟩)
    refine ⟨s2, by simp [destroyAll, ho, h1, Out.bind, h5], h6.inv, ?_, ?_, ?_, h6.next.trans (destroy_next h1)⟩
    · intro w hw
      rw [List.mem_cons, not_or] at hw
      rw [h6.live w hw.2, h3.live w hw.1]
    · intro w hw
      rcases List.mem_cons.1 hw with e | hw'
      · rw [e, h6.live z hn'.1]; exact h4
      · exact h6.dead w hw'
    · intro w hw
      rw [List.mem_cons, not_or] at hw
      rw [h6.contents w hw.2, h3.contents w hw.1]

theorem readPtrs_spec (s : State V) : ∀ args : List Name, (∀ g ∈ args, ∃ o p, s.live g = some o ∧ o.space = some p) →
    ∃ ps, readPtrs s args = some ps ∧ List.Forall₂ (fun g p => ∃ o, s.live g = some o ∧ o.space = some p) args ps
  | [], _ => ⟨[], rfl, .nil⟩
  | g :: gs, h => by
    obtain ⟨o, p, ho, hp⟩ := h g (by simp)
    obtain ⟨ps, h1, h2⟩ := readPtrs_spec s gs fun g' hg' => h g' (by simp [hg'])
    exact ⟨p :: ps, by simp [readPtrs, ho, hp, h1], .cons ⟨o, ho, hp⟩ h2⟩

/-- A buffer is there iff a live object refers to it. -/
theorem buf_iff {s : State V} (hI : Inv s) (p : Addr) :
    (∃ b, s.bufs p = some b) ↔ ∃ z o, s.live z = some o ∧ o.space = some p := by
  have hb := hI.heap.buf p
  constructor
  · rintro ⟨b, hb'⟩
    rw [hb'] at hb
    have hr : refs s.objs p ≠ 0 := by simpa using hb.symm
    have : 0 < s.objs.countP (fun o => decide (o.bind Obj.cnt = some p)) := Nat.pos_of_ne_zero hr
    rw [List.countP_pos_iff] at this
    obtain ⟨w, hw, hc⟩ := this
    cases w with
    | none => simp at hc
    | some o =>
      obtain ⟨z, hz⟩ := List.mem_iff_getElem?.1 hw
      refine ⟨z, o, live_of hz, ?_⟩
      rw [← (hI.obj z o hz).pair]
      simpa using hc
  · rintro ⟨z, o, hz, hs⟩
    have hr := refs_pos (live_eq hz) ((hI.obj z o (live_eq hz)).pair.trans hs)
    rw [decide_eq_true hr] at hb
    exact Option.isSome_iff_exists.1 hb

theorem readBufs_none {s : State V} {p : Addr} : ∀ {ps : List Addr}, p ∈ ps → s.bufs p = none → readBufs s ps = none
  | q :: qs, h, hp => by
    rcases List.mem_cons.1 h with e | h'
    · simp [readBufs, ← e, hp]
    · simp [readBufs, readBufs_none h' hp]

theorem contents_of_space {s : State V} {z : Name} {o : Obj} {p : Addr} (hz : s.live z = some o) (hp : o.space = some p) :
    s.contents z = s.bufs p := by simp [State.contents, hz, hp]

/-- If the write accessor did not move the target although its buffer was `p`, nobody else refers to `p`; and if somebody else does, the target moves away. -/
theorem private_alone {s : State V} {x z : Name} {o oz : Obj} {d : List (Option V)} (hI : Inv s) (hP : Private s x o d) (hne : z ≠ x)
    (hz : s.live z = some oz) (hx : ∃ p, (∃ o', s.live x = some o' ∧ o'.space = some p) ∧ oz.space = some p) : False := by
  obtain ⟨⟨q, hq, hr, -⟩, -⟩ := hP
  obtain ⟨p, ⟨o', ho', hp'⟩, hp⟩ := hx
  rw [live_of hq] at ho'
  have e : q = p := by
    have := Option.some.inj ho'
    rw [← this] at hp'
    simpa using hp'
  have := refs_ge_two hne hq (live_eq hz) rfl ((hI.obj z oz (live_eq hz)).pair.trans (e ▸ hp))
  omega

/-- The write accessor leaves the target where it is if its buffer is not shared. -/
theorem copyOnWrite_stays {s s' : State V} {x : Name} {o : Obj} {p : Addr} (hI : Inv s) (hx : s.live x = some o) (hp : o.space = some p)
    (hal : ∀ z oz, z ≠ x → s.live z = some oz → oz.space ≠ some p) (h : copyOnWrite s x o = .ok s') : s' = s := by
  have hc : o.cnt = some p := (hI.obj x o (live_eq hx)).pair.trans hp
  have hr0 := refs_pos (live_eq hx) hc
  have hr : ¬ refs s.objs p > 1 := by
    intro hgt
    have h1 := refs_set (l := s.objs) none (live_eq hx) p
    simp only [Option.bind_some, hc, if_true] at h1
    have hpos : refs (s.objs.set x none) p ≠ 0 := by
      simp at h1; omega
    have hpos' : 0 < (s.objs.set x none).countP (fun o => decide (o.bind Obj.cnt = some p)) := Nat.pos_of_ne_zero hpos
    rw [List.countP_pos_iff] at hpos'
    obtain ⟨w, hw, hcw⟩ := hpos'
    cases w with
    | none => simp at hcw
    | some oz =>
      obtain ⟨z, hz⟩ := List.mem_iff_getElem?.1 hw
      have hne : z ≠ x := by
        intro e
        have hlt := (List.getElem?_eq_some_iff.1 (live_eq hx)).1
        subst e
        rw [List.getElem?_set_self hlt] at hz
        simp at hz
      rw [List.getElem?_set_ne (Ne.symm hne)] at hz
      refine hal z oz hne (live_of hz) ?_
      rw [← (hI.obj z oz hz).pair]
      simpa using hcw
  obtain ⟨hcn, b, hb⟩ := hI.heap.get hr0
  unfold copyOnWrite at h
  simp only [hc, hcn, if_neg hr] at h
  exact (Out.ok.inj h).symm

end Verif.Mem

namespace Verif.Fields

/-! ## Assigning a field of an element to the element -/

variable {κ W : Type} [LinearOrder κ]

/-- The objects a field map points to: `nodes i = none` is a deleted object. `W` is the value of an object (entries and attached fields). -/
structure Store (κ W : Type) where
  nodes : Nat → Option W
  next : Nat

/-- `Fields.find(name)`. -/
def look (k : κ) : List (κ × Nat) → Option Nat
  | [] => none
  | p :: l => if p.1 = k then some p.2 else look k l

/-- `Fields.insert` of a new name into the map sorted by names. -/
def insertAt (k : κ) (i : Nat) : List (κ × Nat) → List (κ × Nat)
  | [] => [(k, i)]
  | p :: l => if k < p.1 then (k, i) :: p :: l else p :: insertAt k i l

/-- The first loop of `Element::CopyTo` (`Element.cpp:2602-2614`): the fields of the source are assigned to the fields of the target of the same name, which stay the
same objects; missing ones are new objects. Simplification: copying one field onto another is exact (C07, C61). The loop walks over the fields of the source as they
are when it starts: the case in which the source is itself the field of the target under one of these names, so that it changes while it is read, is excluded by a
hypothesis of the theorems. -/
def mergeInto : Store κ W → List (κ × W) → List (κ × Nat) → Store κ W × List (κ × Nat)
  | st, [], m => (st, m)
  | st, (k, w) :: fs, m =>
    match look k m with
    | some i => mergeInto { st with nodes := Function.update st.nodes i (some w) } fs m
    | none => mergeInto ⟨Function.update st.nodes st.next (some w), st.next + 1⟩ fs (insertAt k st.next m)

/-- The second loop of `Element::CopyTo` (`Element.cpp:2617-2628`): `this->Fields.find` reads the source object, which must still exist; a field unknown to the source
is deleted (`RemoveFromFields`, `Element.cpp:2816-2825`). `names` are the names of the fields of the source. -/
def pruneLoop (src : Nat) (names : List κ) : Store κ W → List (κ × Nat) → Option (Store κ W × List (κ × Nat))
  | st, [] => some (st, [])
  | st, (k, i) :: m =>
    match st.nodes src with
    | none => none                                         -- reads the fields of a deleted object
    | some _ =>
      if k ∈ names then (pruneLoop src names st m).map fun r => (r.1, (k, i) :: r.2)
      else pruneLoop src names { st with nodes := Function.update st.nodes i none } m

/-- `this->CopyTo(eta)`, the part about the attached fields (`Element.cpp:2600-2629`); `this` is the object `src`, `m` the field map of `eta`; `kids` are the attached
fields of a value. The result `none` is a read of a deleted object. -/
def assignFrom (kids : W → List (κ × W)) (st : Store κ W) (src : Nat) (m : List (κ × Nat)) :
    Option (Store κ W × List (κ × Nat)) :=
  match st.nodes src with
  | none => none
  | some w =>
    let r := mergeInto st (kids w) m
    if (kids w).length < r.2.length then pruneLoop src ((kids w).map Prod.fst) r.1 r.2 else some r

end Verif.Fields
