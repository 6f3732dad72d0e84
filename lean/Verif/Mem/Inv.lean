import Verif.Mem.Heap

/-! Helper lemmas: the heap invariant and its preservation by every operation. -/

namespace Verif.Mem
variable {V : Type}

/-- Number of live objects whose counter pointer is `a`. -/
def refs (l : List (Option Obj)) (a : Addr) : Nat :=
  l.countP fun o => decide (o.bind Obj.cnt = some a)

/-- The heap agrees with the reference numbers `k`. -/
structure HeapOk (s : State V) (k : Addr → Nat) : Prop where
  cnt : ∀ a, s.cnts a = if k a = 0 then none else some (k a)
  buf : ∀ a, (s.bufs a).isSome = decide (k a ≠ 0)
  fresh : ∀ a, s.next ≤ a → k a = 0

/-- An object record is consistent with the heap. -/
structure ObjOk (s : State V) (o : Obj) : Prop where
  pair : o.cnt = o.space
  len : ∀ a b, o.space = some a → s.bufs a = some b → b.length = o.length
  shape : (o.size = [] ∧ o.length = 0) ∨ (∃ r c n, o.size = [r, c, n] ∧ o.length = shapeLen [r, c, n])

structure Inv (s : State V) : Prop where
  heap : HeapOk s (refs s.objs)
  obj : ∀ (x : Nat) o, s.objs[x]? = some (some o) → ObjOk s o

theorem live_eq {s : State V} {x : Name} {o : Obj} (h : s.live x = some o) :
    s.objs[x]? = some (some o) := by
  unfold State.live at h
  split at h <;> simp_all

theorem live_of {s : State V} {x : Name} {o : Obj} (h : s.objs[x]? = some (some o)) :
    s.live x = some o := by simp [State.live, h]

theorem refs_pos {l : List (Option Obj)} {x : Name} {o : Obj} {a : Addr}
    (h : l[x]? = some (some o)) (hc : o.cnt = some a) : refs l a ≠ 0 := by
  unfold refs
  have : 0 < l.countP (fun o => decide (o.bind Obj.cnt = some a)) := by
    rw [List.countP_pos_iff]
    exact ⟨some o, List.mem_of_getElem? h, by simp [hc]⟩
  omega

theorem refs_set {l : List (Option Obj)} {x : Name} {o : Option Obj} (o' : Option Obj)
    (h : l[x]? = some o) (a : Addr) :
    refs (l.set x o') a + (if o.bind Obj.cnt = some a then 1 else 0)
      = refs l a + (if o'.bind Obj.cnt = some a then 1 else 0) := by
  unfold refs
  obtain ⟨hx, rfl⟩ := List.getElem?_eq_some_iff.1 h
  rw [List.countP_set hx]
  by_cases hp : (l[x]).bind Obj.cnt = some a
  · have : 0 < l.countP (fun o => decide (o.bind Obj.cnt = some a)) := by
      rw [List.countP_pos_iff]
      exact ⟨l[x], List.getElem_mem _, by simpa using hp⟩
    simp [hp]
    split <;> omega
  · simp [hp]

theorem upd_same {β : Type} (f : Addr → β) (a : Addr) (b : β) : upd f a b a = b := by simp [upd]
theorem upd_other {β : Type} (f : Addr → β) {a a' : Addr} (b : β) (h : a' ≠ a) :
    upd f a b a' = f a' := by simp [upd, h]

theorem HeapOk.get {s : State V} {k : Addr → Nat} (h : HeapOk s k) {a : Addr} (ha : k a ≠ 0) :
    s.cnts a = some (k a) ∧ ∃ b, s.bufs a = some b := by
  refine ⟨by simp [h.cnt, ha], ?_⟩
  have := h.buf a
  simp [ha] at this
  exact Option.isSome_iff_exists.1 this

theorem HeapOk.congr {s : State V} {k k' : Addr → Nat} (h : HeapOk s k) (e : ∀ a, k a = k' a) :
    HeapOk s k' := by
  have : k = k' := funext e
  subst this; exact h

theorem HeapOk.objs {s : State V} {k : Addr → Nat} (h : HeapOk s k) (l) :
    HeapOk { s with objs := l } k := ⟨h.cnt, h.buf, h.fresh⟩

/-- Decrementing a counter above one. -/
theorem HeapOk.dec {s : State V} {k : Addr → Nat} (h : HeapOk s k) {c : Addr} (hc : k c > 1) :
    HeapOk { s with cnts := upd s.cnts c (some (k c - 1)) } (upd k c (k c - 1)) := by
  refine ⟨fun a => ?_, fun a => ?_, fun a ha => ?_⟩
  · by_cases e : a = c
    · subst e; simp [upd]; omega
    · simp [upd, e, h.cnt]
  · by_cases e : a = c
    · subst e; simp [upd, h.buf]; omega
    · simp [upd, e, h.buf]
  · have := h.fresh a ha
    by_cases e : a = c
    · subst e; simp [upd]; omega
    · simp [upd, e, this]

/-- Incrementing a live counter. -/
theorem HeapOk.inc {s : State V} {k : Addr → Nat} (h : HeapOk s k) {c : Addr} (hc : k c ≠ 0) :
    HeapOk { s with cnts := upd s.cnts c (some (k c + 1)) } (upd k c (k c + 1)) := by
  refine ⟨fun a => ?_, fun a => ?_, fun a ha => ?_⟩
  · by_cases e : a = c
    · subst e; simp [upd]
    · simp [upd, e, h.cnt]
  · by_cases e : a = c
    · subst e; simp [upd, h.buf]; omega
    · simp [upd, e, h.buf]
  · have := h.fresh a ha
    by_cases e : a = c
    · subst e; omega
    · simp [upd, e, this]

/-- Freeing the last reference. -/
theorem HeapOk.free {s : State V} {k : Addr → Nat} (h : HeapOk s k) {c : Addr} (cn : Addr → Option Nat)
    (hcn : ∀ a, a ≠ c → cn a = s.cnts a) :
    HeapOk { s with cnts := upd cn c none, bufs := upd s.bufs c none } (upd k c 0) := by
  refine ⟨fun a => ?_, fun a => ?_, fun a ha => ?_⟩
  · by_cases e : a = c
    · subst e; simp [upd]
    · simp [upd, e, h.cnt, hcn a e]
  · by_cases e : a = c
    · subst e; simp [upd]
    · simp [upd, e, h.buf]
  · have := h.fresh a ha
    by_cases e : a = c
    · subst e; simp [upd]
    · simp [upd, e, this]

/-- Allocating a fresh pair. -/
theorem HeapOk.alloc {s : State V} {k : Addr → Nat} (h : HeapOk s k) (data : List (Option V)) (l) :
    HeapOk { s with next := s.next + 1, bufs := upd s.bufs s.next (some data),
                    cnts := upd s.cnts s.next (some 1), objs := l } (upd k s.next 1) := by
  refine ⟨fun a => ?_, fun a => ?_, fun a ha => ?_⟩
  · by_cases e : a = s.next
    · subst e; simp [upd]
    · simp [upd, e, h.cnt]
  · by_cases e : a = s.next
    · subst e; simp [upd]
    · simp [upd, e, h.buf]
  · have ha : s.next + 1 ≤ a := ha
    have e : a ≠ s.next := by omega
    simp [upd, e, h.fresh a (by omega)]

/-- Overwriting a live buffer. -/
theorem HeapOk.store {s : State V} {k : Addr → Nat} (h : HeapOk s k) {p : Addr} (hp : k p ≠ 0)
    (d : List (Option V)) : HeapOk { s with bufs := upd s.bufs p (some d) } k := by
  refine ⟨h.cnt, fun a => ?_, h.fresh⟩
  by_cases e : a = p
  · subst e; simp [upd, hp]
  · simp [upd, e, h.buf]


/-! ### Effects of the methods -/

/-- Nothing about the other objects changed. -/
structure Frame (s s' : State V) (x : Name) : Prop where
  len : s'.objs.length = s.objs.length
  live : ∀ z, z ≠ x → s'.live z = s.live z
  contents : ∀ z, z ≠ x → s'.contents z = s.contents z

theorem Frame.refl (s : State V) (x : Name) : Frame s s x := ⟨rfl, fun _ _ => rfl, fun _ _ => rfl⟩

theorem Frame.trans {s s' s'' : State V} {x : Name} (h : Frame s s' x) (h' : Frame s' s'' x) :
    Frame s s'' x :=
  ⟨h'.len.trans h.len, fun z hz => (h'.live z hz).trans (h.live z hz),
    fun z hz => (h'.contents z hz).trans (h.contents z hz)⟩

/-- Two different objects pointing to the same buffer are both counted. -/
theorem refs_ge_two {l : List (Option Obj)} {x z : Name} {o oz : Obj} {a : Addr} (hne : z ≠ x)
    (hx : l[x]? = some (some o)) (hz : l[z]? = some (some oz)) (hcx : o.cnt = some a)
    (hcz : oz.cnt = some a) : 2 ≤ refs l a := by
  have h := refs_set (l := l) none hx a
  have hz' : (l.set x none)[z]? = some (some oz) := by
    rw [List.getElem?_set_ne (by omega)]; exact hz
  have := refs_pos hz' hcz
  simp [hcx] at h
  omega

theorem live_setObj_same {s : State V} {x : Name} {o o' : Obj} (hx : s.objs[x]? = some (some o)) :
    (s.setObj x o').objs[x]? = some (some o') := by
  obtain ⟨h, -⟩ := List.getElem?_eq_some_iff.1 hx
  simp [State.setObj, h]

theorem contents_eq {s : State V} {x : Name} {o : Obj} (hx : s.objs[x]? = some (some o)) :
    s.contents x = o.space.bind s.bufs := by
  simp [State.contents, live_of hx]

/-- Allocation of a private buffer for `x` after the heap has been adjusted by giving up the old
reference of `x`. -/
theorem allocFor_spec {s0 s : State V} {x : Name} {o : Obj} {k : Addr → Nat} {data : List (Option V)}
    (hI : Inv s0) (hx : s0.objs[x]? = some (some o)) (ho : s.objs = s0.objs)
    (hb : s.bufs = s0.bufs) (hn : s.next = s0.next)
    (hk : HeapOk s k) (hkr : ∀ a, k a + (if o.cnt = some a then 1 else 0) = refs s0.objs a)
    (hd : data.length = o.length) :
    Inv (allocFor s x o data) ∧ Frame s0 (allocFor s x o data) x ∧
      (allocFor s x o data).live x = some { o with cnt := some s0.next, space := some s0.next } ∧
      (allocFor s x o data).contents x = some data ∧
      refs (allocFor s x o data).objs s0.next = 1 := by
  have hx' : (allocFor s x o data).objs[x]? =
      some (some { o with cnt := some s0.next, space := some s0.next }) := by
    simp only [allocFor]
    rw [live_setObj_same (o := o)]
    · rw [hn]
    · simpa [ho] using hx
  have hobjs : (allocFor s x o data).objs =
      s0.objs.set x (some { o with cnt := some s0.next, space := some s0.next }) := by
    simp [allocFor, State.setObj, ho, hn]
  have hbuf : (allocFor s x o data).bufs = upd s0.bufs s0.next (some data) := by
    simp [allocFor, State.setObj, hb, hn]
  have hother : ∀ z, z ≠ x → (allocFor s x o data).objs[z]? = s0.objs[z]? := by
    intro z hz; rw [hobjs, List.getElem?_set_ne (by omega)]
  have hfresh : ∀ (z : Nat) oz, s0.objs[z]? = some (some oz) → oz.space ≠ some s0.next := by
    intro z oz hz hc
    have := refs_pos hz (((hI.obj z oz hz).pair).trans hc)
    exact this (hI.heap.fresh _ (Nat.le_refl _))
  have hrefs : ∀ a, refs (allocFor s x o data).objs a = upd k s0.next 1 a := by
    intro a
    have h1 := refs_set (some { o with cnt := some s0.next, space := some s0.next }) hx a
    rw [← hobjs] at h1
    have h2 := hkr a
    simp only [Option.bind_some, Option.some.injEq] at h1
    by_cases e : a = s0.next
    · subst e
      have h3 := hI.heap.fresh s0.next (Nat.le_refl _)
      simp [upd] at *
      omega
    · have e' : ¬ (s0.next = a) := fun h => e h.symm
      simp [upd, e, e'] at *
      omega
  refine ⟨⟨?_, ?_⟩, ⟨?_, ?_, ?_⟩, live_of hx', ?_, ?_⟩
  · have := (hk.alloc data (allocFor s x o data).objs)
    refine HeapOk.congr (k := upd k s.next 1) ?_ (fun a => by rw [hrefs a, hn])
    exact this
  · intro z oz hz
    by_cases e : z = x
    · subst e
      rw [hx'] at hz
      obtain rfl : _ = oz := by simpa using hz
      refine ⟨rfl, ?_, (hI.obj _ _ hx).shape⟩
      intro a b ha hb'
      obtain rfl : s0.next = a := by simpa using ha
      rw [hbuf] at hb'
      obtain rfl : data = b := by simpa [upd] using hb'
      exact hd
    · rw [hother z e] at hz
      have h0 := hI.obj z oz hz
      refine ⟨h0.pair, ?_, h0.shape⟩
      intro a b ha hb'
      have : a ≠ s0.next := fun h => hfresh z oz hz (h ▸ ha)
      rw [hbuf, upd_other _ _ this] at hb'
      exact h0.len a b ha hb'
  · simp [hobjs]
  · intro z hz; simp [State.live, hother z hz]
  · intro z hz
    have hl : (allocFor s x o data).live z = s0.live z := by simp [State.live, hother z hz]
    unfold State.contents
    rw [hl]
    cases h : s0.live z with
    | none => rfl
    | some oz =>
      have hz' := live_eq h
      cases hs : oz.space with
      | none => simp [hs]
      | some a =>
        have : a ≠ s0.next := fun h => hfresh z oz hz' (h ▸ hs)
        simp [hs, hbuf, upd_other _ _ this]
  · rw [contents_eq hx']; simp [hbuf, upd]
  · rw [hrefs]; simp [upd]

/-- The heap after `(*sharedtimes)--` on a counter above one. -/
theorem dec_spec {s : State V} {x : Name} {o : Obj} {c : Addr} (hI : Inv s)
    (hx : s.objs[x]? = some (some o)) (hc : o.cnt = some c) (hk : refs s.objs c > 1) :
    HeapOk { s with cnts := upd s.cnts c (some (refs s.objs c - 1)) }
        (upd (refs s.objs) c (refs s.objs c - 1)) ∧
    ∀ a, upd (refs s.objs) c (refs s.objs c - 1) a + (if o.cnt = some a then 1 else 0)
        = refs s.objs a := by
  refine ⟨hI.heap.dec hk, fun a => ?_⟩
  by_cases e : a = c
  · subst e; simp [upd, hc]; omega
  · have e' : ¬ (c = a) := fun h => e h.symm
    simp [upd, e, hc, e']

/-- What holds of the receiver after a write accessor. -/
structure Private (s' : State V) (x : Name) (o : Obj) (d : List (Option V)) : Prop where
  ex : ∃ p, s'.objs[x]? = some (some { o with cnt := some p, space := some p }) ∧
      refs s'.objs p = 1 ∧ s'.bufs p = some d
  len : d.length = o.length

theorem newMemoryOnWrite_spec {s : State V} {x : Name} {o : Obj} (hI : Inv s)
    (hx : s.objs[x]? = some (some o)) :
    ∃ s' d, newMemoryOnWrite s x o = .ok s' ∧ Inv s' ∧ Frame s s' x ∧ Private s' x o d := by
  unfold newMemoryOnWrite
  cases hc : o.cnt with
  | none =>
    have h := allocFor_spec (s := s) (k := refs s.objs) (data := List.replicate o.length none) hI hx
      rfl rfl rfl hI.heap (by simp [hc]) (by simp)
    obtain ⟨h1, h2, h3, h4, h5⟩ := h
    refine ⟨_, List.replicate o.length none, rfl, h1, h2, ⟨⟨_, live_eq h3, h5, ?_⟩, ?_⟩⟩
    · simpa [contents_eq (live_eq h3)] using h4
    · simp
  | some c =>
    obtain ⟨hcn, b, hb⟩ := hI.heap.get (refs_pos hx hc)
    simp only [hcn]
    split
    · rename_i hk
      obtain ⟨h6, h7⟩ := dec_spec hI hx hc hk
      have h := allocFor_spec (s := { s with cnts := upd s.cnts c (some (refs s.objs c - 1)) })
        (data := List.replicate o.length none) hI hx rfl rfl rfl h6 h7 (by simp)
      obtain ⟨h1, h2, h3, h4, h5⟩ := h
      refine ⟨_, List.replicate o.length none, rfl, h1, h2, ⟨⟨_, live_eq h3, h5, ?_⟩, ?_⟩⟩
      · simpa [contents_eq (live_eq h3)] using h4
      · simp
    · rename_i hk
      have hp := (hI.obj x o hx).pair
      have hs : o.space = some c := by rw [← hp, hc]
      refine ⟨s, b, rfl, hI, Frame.refl _ _, ⟨⟨c, ?_, ?_, hb⟩, (hI.obj x o hx).len c b hs hb⟩⟩
      · rw [hx]; cases o; simp_all
      · have := refs_pos hx hc; omega

theorem copyOnWrite_spec {s : State V} {x : Name} {o : Obj} (hI : Inv s)
    (hx : s.objs[x]? = some (some o)) :
    ∃ s' d, copyOnWrite s x o = .ok s' ∧ Inv s' ∧ Frame s s' x ∧ Private s' x o d ∧
      d = (s.contents x).getD (List.replicate o.length none) := by
  unfold copyOnWrite
  cases hc : o.cnt with
  | none =>
    have hp := (hI.obj x o hx).pair
    have hs : o.space = none := by rw [← hp, hc]
    have h := allocFor_spec (s := s) (k := refs s.objs) (data := List.replicate o.length none) hI hx
      rfl rfl rfl hI.heap (by simp [hc]) (by simp)
    obtain ⟨h1, h2, h3, h4, h5⟩ := h
    refine ⟨_, List.replicate o.length none, rfl, h1, h2, ⟨⟨_, live_eq h3, h5, ?_⟩, ?_⟩, ?_⟩
    · simpa [contents_eq (live_eq h3)] using h4
    · simp
    · simp [contents_eq hx, hs]
  | some c =>
    obtain ⟨hcn, b, hb⟩ := hI.heap.get (refs_pos hx hc)
    have hp := (hI.obj x o hx).pair
    have hs : o.space = some c := by rw [← hp, hc]
    have hlen := (hI.obj x o hx).len c b hs hb
    simp only [hcn, hs, hb]
    split
    · rename_i hk
      rw [if_neg (by omega)]
      obtain ⟨h6, h7⟩ := dec_spec hI hx hc hk
      have hcp : copyCells o.length b (List.replicate o.length none) = b := by
        simp [copyCells, ← hlen]
      rw [hcp]
      have h := allocFor_spec (s := { s with cnts := upd s.cnts c (some (refs s.objs c - 1)) })
        (data := b) hI hx rfl rfl rfl h6 h7 hlen
      obtain ⟨h1, h2, h3, h4, h5⟩ := h
      refine ⟨_, b, rfl, h1, h2, ⟨⟨_, live_eq h3, h5, ?_⟩, hlen⟩, ?_⟩
      · simpa [contents_eq (live_eq h3)] using h4
      · simp [contents_eq hx, hs, hb]
    · rename_i hk
      refine ⟨s, b, rfl, hI, Frame.refl _ _, ⟨⟨c, ?_, ?_, hb⟩, hlen⟩, ?_⟩
      · rw [hx]; cases o; simp_all
      · have := refs_pos hx hc; omega
      · simp [contents_eq hx, hs, hb]

/-- Storing into a buffer changes exactly the objects that point to it. -/
theorem storeRaw_spec {s : State V} {x : Name} {o : Obj} {p : Addr} {b : List (Option V)}
    {f : List (Option V) → List (Option V)} (hI : Inv s) (hx : s.objs[x]? = some (some o))
    (hp : o.space = some p) (hb : s.bufs p = some b) (hf : (f b).length = b.length) :
    ∃ s', storeRaw s o f = .ok s' ∧ Inv s' ∧ s'.objs = s.objs ∧
      (∀ z, s'.live z = s.live z) ∧ s'.contents x = some (f b) ∧
      ∀ (z : Nat) oz, s.objs[z]? = some (some oz) → oz.space ≠ some p → s'.contents z = s.contents z := by
  have hlen := (hI.obj x o hx).len p b hp hb
  have hr : refs s.objs p ≠ 0 := refs_pos hx ((hI.obj x o hx).pair.trans hp)
  refine ⟨{ s with bufs := upd s.bufs p (some (f b)) }, ?_, ⟨?_, ?_⟩, rfl, fun z => rfl, ?_, ?_⟩
  · have : ¬ b.length < o.length := by omega
    simp [storeRaw, hp, hb, this]
  · exact hI.heap.store hr _
  · intro z oz hz
    have h0 := hI.obj z oz hz
    refine ⟨h0.pair, ?_, h0.shape⟩
    intro a b' ha hb'
    by_cases e : a = p
    · subst e
      have e2 : f b = b' := by simpa [upd] using hb'
      rw [← e2, hf]; exact h0.len a b ha hb
    · have hb2 : s.bufs a = some b' := by simpa [upd, e] using hb'
      exact h0.len a b' ha hb2
  · rw [contents_eq (s := { s with bufs := upd s.bufs p (some (f b)) }) hx]
    simp [hp, upd]
  · intro z oz hz hne
    rw [contents_eq (s := { s with bufs := upd s.bufs p (some (f b)) }) hz, contents_eq hz]
    cases hs : oz.space with
    | none => rfl
    | some a =>
      have : a ≠ p := fun h => hne (h ▸ hs)
      simp [upd, this]

/-- A store through the pointer returned by a write accessor changes only the receiver. -/
theorem thenStore_spec {s s1 : State V} {x : Name} {o : Obj} {d : List (Option V)}
    {f : List (Option V) → List (Option V)} (hI : Inv s1) (hF : Frame s s1 x)
    (hP : Private s1 x o d) (hf : ∀ b, (f b).length = b.length) :
    ∃ s' p, thenStore (.ok s1) x f = .ok s' ∧ Inv s' ∧ Frame s s' x ∧
      s'.live x = some { o with cnt := some p, space := some p } ∧ s'.contents x = some (f d) := by
  obtain ⟨⟨p, hx, hr, hb⟩, hl⟩ := hP
  obtain ⟨s', h1, h2, h3, h4, h5, h6⟩ := storeRaw_spec (f := f) hI hx rfl hb (hf d)
  refine ⟨s', p, ?_, h2, ⟨by rw [h3]; exact hF.len, fun z hz => (h4 z).trans (hF.live z hz), ?_⟩, ?_, h5⟩
  · simp [thenStore, Out.bind, live_of hx, h1]
  · intro z hz
    rw [← hF.contents z hz]
    cases hz' : s1.objs[z]? with
    | none => simp [State.contents, State.live, h3, hz']
    | some w =>
      cases w with
      | none => simp [State.contents, State.live, h3, hz']
      | some oz =>
        refine h6 z oz hz' ?_
        intro hsp
        have hcz := (hI.obj z oz hz').pair.trans hsp
        have := refs_ge_two hz hx hz' rfl hcz
        omega
  · rw [h4]; exact live_of hx

/-- Giving up the reference of `x`: what `release` does to the heap. -/
theorem release_spec {s : State V} {x : Name} {o : Obj} (hI : Inv s)
    (hx : s.objs[x]? = some (some o)) :
    ∃ s' k, release s o = .ok s' ∧ HeapOk s' k ∧ s'.objs = s.objs ∧ s'.next = s.next ∧
      (∀ a, k a + (if o.cnt = some a then 1 else 0) = refs s.objs a) ∧
      (∀ a, k a ≠ 0 → s'.bufs a = s.bufs a) := by
  unfold release
  cases hc : o.cnt with
  | none => exact ⟨s, refs s.objs, rfl, hI.heap, rfl, rfl, by simp, fun _ _ => rfl⟩
  | some c =>
    obtain ⟨hcn, b, hb⟩ := hI.heap.get (refs_pos hx hc)
    have hp := (hI.obj x o hx).pair
    have hs : o.space = some c := by rw [← hp, hc]
    have hr := refs_pos hx hc
    simp only [hcn]
    by_cases hk : refs s.objs c - 1 = 0
    · have e : (upd (refs s.objs) c 0) = (upd (refs s.objs) c (refs s.objs c - 1)) := by rw [hk]
      refine ⟨{ s with cnts := upd (upd s.cnts c (some (refs s.objs c - 1))) c none,
                       bufs := upd s.bufs c none }, upd (refs s.objs) c 0, ?_, ?_, rfl, rfl, ?_, ?_⟩
      · simp [hk, hs, freePair, upd, hb]
      · exact hI.heap.free _ (fun a ha => by simp [upd, ha])
      · intro a
        by_cases e : a = c
        · subst e; simp [upd]; omega
        · have e' : ¬ (c = a) := fun h => e h.symm
          simp [upd, e, e']
      · intro a ha
        by_cases e : a = c
        · subst e; simp [upd] at ha
        · simp [upd, e]
    · refine ⟨{ s with cnts := upd s.cnts c (some (refs s.objs c - 1)) },
        upd (refs s.objs) c (refs s.objs c - 1), ?_, ?_, rfl, rfl, ?_, ?_⟩
      · simp [hk]
      · exact hI.heap.dec (by omega)
      · intro a
        by_cases e : a = c
        · subst e; simp [upd]; omega
        · have e' : ¬ (c = a) := fun h => e h.symm
          simp [upd, e, e']
      · intro a _; rfl

/-- Replacing the record of `x` after its old reference has been given up. -/
theorem setObj_spec {s0 s : State V} {x : Name} {o : Obj} {k : Addr → Nat} (o' : Option Obj)
    (hI : Inv s0) (hx : s0.objs[x]? = some (some o)) (ho : s.objs = s0.objs)
    (hk : HeapOk s k)
    (hkr : ∀ a, k a + (if o.cnt = some a then 1 else 0)
        = refs s0.objs a + (if o'.bind Obj.cnt = some a then 1 else 0))
    (hb : ∀ (z : Nat) oz a, z ≠ x → s0.objs[z]? = some (some oz) → oz.space = some a →
      s.bufs a = s0.bufs a)
    (hok : ∀ w, o' = some w → ObjOk s w) :
    Inv { s with objs := s.objs.set x o' } ∧ Frame s0 { s with objs := s.objs.set x o' } x ∧
      ({ s with objs := s.objs.set x o' } : State V).objs[x]? = some o' := by
  obtain ⟨hlt, -⟩ := List.getElem?_eq_some_iff.1 hx
  have hother : ∀ z, z ≠ x → ({ s with objs := s.objs.set x o' } : State V).objs[z]? = s0.objs[z]? := by
    intro z hz; show (s.objs.set x o')[z]? = _; rw [List.getElem?_set_ne (by omega), ho]
  have hself : ({ s with objs := s.objs.set x o' } : State V).objs[x]? = some o' := by
    show (s.objs.set x o')[x]? = _; rw [ho]; simp [hlt]
  refine ⟨⟨?_, ?_⟩, ⟨by simp [ho], ?_, ?_⟩, hself⟩
  · refine HeapOk.congr (k := k) ⟨hk.cnt, hk.buf, hk.fresh⟩ ?_
    intro a
    show k a = refs (s.objs.set x o') a
    have h1 := refs_set o' hx a
    have h2 := hkr a
    rw [ho]
    simp only [Option.bind_some] at h1
    omega
  · intro z oz hz
    by_cases e : z = x
    · subst e
      rw [hself] at hz
      have := hok oz (by simpa using hz)
      exact ⟨this.pair, this.len, this.shape⟩
    · rw [hother z e] at hz
      have h0 := hI.obj z oz hz
      refine ⟨h0.pair, ?_, h0.shape⟩
      intro a b ha hb'
      have hb'' : s.bufs a = some b := hb'
      rw [hb z oz a e hz ha] at hb''
      exact h0.len a b ha hb''
  · intro z hz; simp only [State.live, hother z hz]
  · intro z hz
    simp only [State.contents, State.live, hother z hz]
    cases h : s0.objs[z]? with
    | none => rfl
    | some w =>
      cases w with
      | none => rfl
      | some oz =>
        cases hs : oz.space with
        | none => simp [hs]
        | some a => simp [hs, hb z oz a hz h hs]

theorem destroy_spec {s : State V} {x : Name} {o : Obj} (hI : Inv s)
    (hx : s.objs[x]? = some (some o)) :
    ∃ s', destroy s x o = .ok s' ∧ Inv s' ∧ Frame s s' x ∧ s'.live x = none := by
  obtain ⟨s1, k, h1, h2, h3, h4, h5, h6⟩ := release_spec hI hx
  have h := setObj_spec (s := s1) none hI hx h3 h2 (by simpa using h5) ?_ (by simp)
  · obtain ⟨a, b, c⟩ := h
    exact ⟨_, by simp [destroy, h1, Out.bind], a, b, by unfold State.live; rw [c]⟩
  · intro z oz a hz hzo hs
    apply h6
    have h7 := h5 a
    by_cases e : o.cnt = some a
    · have := refs_ge_two hz hx hzo e ((hI.obj z oz hzo).pair.trans hs)
      simp [e] at h7; omega
    · have := refs_pos hzo ((hI.obj z oz hzo).pair.trans hs)
      simp [e] at h7; omega

theorem delete_spec {s : State V} {x : Name} {o : Obj} (hI : Inv s)
    (hx : s.objs[x]? = some (some o)) :
    ∃ s', delete s x o = .ok s' ∧ Inv s' ∧ Frame s s' x ∧
      s'.live x = some { size := [], length := 0, cnt := none, space := none } := by
  obtain ⟨s1, k, h1, h2, h3, h4, h5, h6⟩ := release_spec hI hx
  have h := setObj_spec (s := s1) (some { size := [], length := 0, cnt := none, space := none })
    hI hx h3 h2 (by simpa using h5) ?_ ?_
  · obtain ⟨a, b, c⟩ := h
    exact ⟨_, by simp [delete, h1, Out.bind, State.setObj], a, b, live_of c⟩
  · intro z oz a hz hzo hs
    apply h6
    have h7 := h5 a
    by_cases e : o.cnt = some a
    · have := refs_ge_two hz hx hzo e ((hI.obj z oz hzo).pair.trans hs)
      simp [e] at h7; omega
    · have := refs_pos hzo ((hI.obj z oz hzo).pair.trans hs)
      simp [e] at h7; omega
  · intro w hw
    obtain rfl : _ = w := by simpa using hw
    exact ⟨rfl, by simp, Or.inl ⟨rfl, rfl⟩⟩

/-- Result of an assignment to `y`. -/
structure Assigned (s s' : State V) (src dst : Obj) (x y : Name) : Prop where
  inv : Inv s'
  frame : Frame s s' y
  contents : s'.contents y = s.contents x
  live : ∃ o', s'.live y = some o' ∧ o'.length = src.length ∧
    (o'.size = src.size ∨ (o' = dst ∧ dst.space = src.space ∧ dst.space ≠ none))

theorem shareFrom_spec {s0 s : State V} {x y : Name} {src dst : Obj} {k : Addr → Nat}
    (hI : Inv s0) (hx : s0.objs[x]? = some (some src)) (hy : s0.objs[y]? = some (some dst))
    (hne : dst.space ≠ src.space ∨ src.space = none) (hxy : x ≠ y)
    (ho : s.objs = s0.objs) (hk : HeapOk s k)
    (hkr : ∀ a, k a + (if dst.cnt = some a then 1 else 0) = refs s0.objs a)
    (hb : ∀ (z : Nat) oz a, z ≠ y → s0.objs[z]? = some (some oz) → oz.space = some a →
      s.bufs a = s0.bufs a) :
    ∃ s', shareFrom s src y = .ok s' ∧ Assigned s0 s' src dst x y := by
  have hpair := (hI.obj x src hx).pair
  have hdp := (hI.obj y dst hy).pair
  unfold shareFrom
  cases hc : src.cnt with
  | none =>
    have hs : src.space = none := by rw [← hpair, hc]
    have h := setObj_spec (s := s) (some src) hI hy ho hk (by simpa [hc] using hkr) hb ?_
    · obtain ⟨h1, h2, h3⟩ := h
      refine ⟨_, ?_, h1, h2, ?_, src, live_of h3, rfl, Or.inl rfl⟩
      · rfl
      · rw [contents_eq h3, contents_eq hx, hs]; rfl
    · intro w hw
      obtain rfl : src = w := by simpa using hw
      exact ⟨hpair, by simp [hs], (hI.obj x src hx).shape⟩
  | some c =>
    have hs : src.space = some c := by rw [← hpair, hc]
    have hdc : dst.cnt ≠ some c := by
      intro h
      rcases hne with h' | h'
      · exact h' (by rw [← hdp, h, hs])
      · simp [hs] at h'
    have hkc : k c ≠ 0 := by
      have h1 := hkr c
      have h2 := refs_pos hx hc
      simp [hdc] at h1; omega
    obtain ⟨hcn, b, hbb⟩ := hk.get hkc
    have hbs : s.bufs c = s0.bufs c := hb x src c hxy hx hs
    have h := setObj_spec (s := { s with cnts := upd s.cnts c (some (k c + 1)) })
      (some src) hI hy ho (hk.inc hkc) ?_ hb ?_
    · obtain ⟨h1, h2, h3⟩ := h
      refine ⟨_, ?_, h1, h2, ?_, _, live_of h3, rfl, Or.inl rfl⟩
      · simp [hcn, State.setObj, ← hc]
      · rw [contents_eq h3, contents_eq hx, hs]; exact hbs
    · intro a
      have h1 := hkr a
      simp only [Option.bind_some, hc, Option.some.injEq]
      by_cases e : a = c
      · subst e; simp [upd, hdc] at *; omega
      · have e' : ¬ (c = a) := fun h => e h.symm
        simp [upd, e, e'] at *; omega
    · intro w hw
      obtain rfl : _ = w := by simpa using hw
      refine ⟨by simp [hs, hc], ?_, (hI.obj x src hx).shape⟩
      intro a b' ha hb'
      obtain rfl : c = a := by simpa [hs] using ha
      refine (hI.obj x src hx).len c b' hs ?_
      rw [← hbs]; exact hb'

theorem copyTo_spec {s : State V} {x y : Name} {src dst : Obj} (hI : Inv s)
    (hx : s.objs[x]? = some (some src)) (hy : s.objs[y]? = some (some dst)) :
    ∃ s', copyTo s x src y dst = .ok s' ∧ Assigned s s' src dst x y := by
  have hpair := (hI.obj x src hx).pair
  have hdp := (hI.obj y dst hy).pair
  unfold copyTo
  split
  · rename_i h
    refine ⟨s, rfl, hI, Frame.refl _ _, ?_, dst, live_of hy, ?_, ?_⟩
    · rcases h with h | ⟨h, -⟩
      · rw [h]
      · rw [contents_eq hx, contents_eq hy, h]
    · rcases h with h | ⟨h, h'⟩
      · subst h; rw [hx] at hy; simp at hy; rw [hy]
      · cases hs : src.space with
        | none => simp [h, hs] at h'
        | some a =>
          obtain ⟨-, b, hb⟩ := hI.heap.get (refs_pos hx (hpair.trans hs))
          rw [← (hI.obj x src hx).len a b hs hb, ← (hI.obj y dst hy).len a b (h.trans hs) hb]
    · rcases h with h | ⟨h, h'⟩
      · subst h; rw [hx] at hy; simp at hy; rw [hy]; exact Or.inl rfl
      · refine Or.inr ⟨rfl, h, fun h2 => h' ⟨h2, h ▸ h2⟩⟩
  · rename_i h
    have hxy : x ≠ y := fun e => h (Or.inl e)
    have hne : dst.space ≠ src.space ∨ src.space = none := by
      by_cases e : src.space = none
      · exact Or.inr e
      · refine Or.inl fun e' => h (Or.inr ⟨e', fun h2 => e h2.2⟩)
    cases hc : dst.cnt with
    | none =>
      exact shareFrom_spec hI hx hy hne hxy rfl hI.heap (by simp [hc]) (fun _ _ _ _ _ _ => rfl)
    | some c =>
      have hr := refs_pos hy hc
      obtain ⟨hcn, b, hb⟩ := hI.heap.get hr
      have hds : dst.space = some c := by rw [← hdp, hc]
      have hbl := (hI.obj y dst hy).len c b hds hb
      -- no other object uses the buffer of `dst` when the counter is one
      have hex : refs s.objs c = 1 → ∀ (z : Nat) oz a, z ≠ y → s.objs[z]? = some (some oz) →
          oz.space = some a → a ≠ c := by
        intro h1 z oz a hz hzo hs e
        subst e
        have := refs_ge_two hz hy hzo hc ((hI.obj z oz hzo).pair.trans hs)
        omega
      simp only [hcn]
      split
      · rename_i h1
        obtain ⟨h1, h2⟩ := h1
        have hl : src.length = dst.length := by
          have e1 := (hI.obj x src hx).shape
          have e2 := (hI.obj y dst hy).shape
          rcases e1 with ⟨e1, e1'⟩ | ⟨r, c, n, e1, e1'⟩ <;> rcases e2 with ⟨e2, e2'⟩ | ⟨r', c', n', e2, e2'⟩
          · rw [e1', e2']
          · rw [h2, e1] at e2; simp at e2
          · rw [h2, e1] at e2; simp at e2
          · rw [h2, e1] at e2; simp at e2
            obtain ⟨rfl, rfl, rfl⟩ := e2
            rw [e1', e2']
        cases hs : src.space with
        | none =>
          have hI' := hI.heap.free (c := c) s.cnts (fun _ _ => rfl)
          have h := setObj_spec (s := { s with cnts := upd s.cnts c none, bufs := upd s.bufs c none })
            (some { dst with cnt := none, space := none }) hI hy rfl hI' ?_ ?_ ?_
          · obtain ⟨h3, h4, h5⟩ := h
            refine ⟨_, ?_, h3, h4, ?_, _, live_of h5, hl.symm, Or.inl h2⟩
            · simp [freePair, hcn, hds, hb, Out.bind, State.setObj]
            · rw [contents_eq h5, contents_eq hx, hs]; rfl
          · intro a
            by_cases e : a = c
            · subst e; simp [upd, hc]; omega
            · have e' : ¬ (c = a) := fun h => e h.symm
              simp [upd, e, e', hc]
          · intro z oz a hz hzo hsp
            have := hex h1 z oz a hz hzo hsp
            simp [upd, this]
          · intro w hw
            obtain rfl : _ = w := by simpa using hw
            exact ⟨rfl, by simp, (hI.obj y dst hy).shape⟩
        | some p =>
          obtain ⟨-, f, hf⟩ := hI.heap.get (refs_pos hx (hpair.trans hs))
          have hfl := (hI.obj x src hx).len p f hs hf
          obtain ⟨s', g1, g2, g3, g4, g5, g6⟩ := storeRaw_spec (f := fun _ => f) hI hy hds hb
            (by omega)
          have hcp : copyCells src.length f b = f := by
            have e1 : f.take src.length = f := by rw [← hfl]; exact List.take_length
            have e2 : b.drop src.length = [] := List.drop_eq_nil_of_le (by omega)
            simp [copyCells, e1, e2]
          have hnl : ¬ (b.length < dst.length) := by omega
          have hs' : s' = { s with bufs := upd s.bufs c (some f) } := by
            simp [storeRaw, hds, hb, hnl] at g1; exact g1.symm
          refine ⟨s', ?_, g2, ⟨by rw [g3], fun z _ => g4 z, ?_⟩, ?_, dst, ?_, hl.symm, Or.inl h2⟩
          · have : ¬ (f.length < src.length ∨ b.length < src.length) := by omega
            simp [hf, hds, hb, this, hcp, hs']
          · intro z hz
            cases hz' : s.objs[z]? with
            | none => simp [State.contents, State.live, g3, hz']
            | some w =>
              cases w with
              | none => simp [State.contents, State.live, g3, hz']
              | some oz =>
                refine g6 z oz hz' fun e => ?_
                exact hex h1 z oz c hz hz' e rfl
          · rw [g5, contents_eq hx, hs]; exact hf.symm
          · rw [g4]; exact live_of hy
      · rename_i h1
        split
        · rename_i h2
          obtain ⟨h3, h4⟩ := dec_spec hI hy hc h2
          exact shareFrom_spec hI hx hy hne hxy rfl h3 h4 (fun _ _ _ _ _ _ => rfl)
        · have h2 : refs s.objs c = 1 := by omega
          rw [if_pos h2]
          have hfree : freePair s c dst.space =
              .ok { s with cnts := upd s.cnts c none, bufs := upd s.bufs c none } := by
            simp [freePair, hcn, hds, hb]
          rw [hfree]
          refine shareFrom_spec (s := { s with cnts := upd s.cnts c none, bufs := upd s.bufs c none })
            hI hx hy hne hxy rfl (hI.heap.free (c := c) s.cnts (fun _ _ => rfl)) ?_ ?_
          · intro a
            by_cases e : a = c
            · subst e; simp [upd, hc]; omega
            · have e' : ¬ (c = a) := fun h => e h.symm
              simp [upd, e, e', hc]
          · intro z oz a hz hzo hsp
            have := hex h2 z oz a hz hzo hsp
            simp [upd, this]

end Verif.Mem
