import Verif.Elem.Fields
import Mathlib.Data.List.Perm.Subperm
import Mathlib.Tactic.Common
import Mathlib.Data.Nat.Basic

/-!
# C06, C07: attached fields
-/

set_option linter.unusedVariables false
set_option linter.unusedSectionVars false

namespace Verif.Fields

variable {κ : Type} [LinearOrder κ] {D V : Type}

/-! ## C07 -/

section Map
variable {β : Type}

/-- Names in increasing order, as `std::map` iterates. -/
def Sorted (l : List (κ × β)) : Prop := l.Pairwise (fun p q => p.1 < q.1)

theorem find_put (k k' : κ) (v : β) (l : List (κ × β)) : find k (put k' v l) = if k = k' then some v else find k l := by
  induction l with
  | nil => simp [put, find]
  | cons p l ih =>
    obtain ⟨k'', w⟩ := p
    unfold put
    split
    · simp [find]
    · split
      · rename_i h1 h2
        subst h2
        by_cases h : k = k' <;> simp [find, h]
      · rename_i h1 h2
        rw [find, ih, find]
        by_cases h : k = k''
        · subst h
          rw [if_pos rfl, if_pos rfl, if_neg (fun h => h2 h.symm)]
        · rw [if_neg h, if_neg h]

theorem mem_put {k : κ} {v : β} {l : List (κ × β)} {p : κ × β} (h : p ∈ put k v l) : p = (k, v) ∨ p ∈ l := by
  induction l with
  | nil => simpa [put] using h
  | cons q l ih =>
    obtain ⟨k'', w⟩ := q
    unfold put at h
    split at h
    · rcases List.mem_cons.mp h with h | h
      · exact Or.inl h
      · exact Or.inr h
    · split at h
      · rcases List.mem_cons.mp h with h | h
        · exact Or.inl h
        · exact Or.inr (List.mem_cons_of_mem _ h)
      · rcases List.mem_cons.mp h with h | h
        · exact Or.inr (by rw [h]; exact List.mem_cons_self)
        · rcases ih h with h | h
          · exact Or.inl h
          · exact Or.inr (List.mem_cons_of_mem _ h)

theorem sorted_put {k : κ} {v : β} {l : List (κ × β)} (h : Sorted l) : Sorted (put k v l) := by
  induction l with
  | nil => simp [put, Sorted]
  | cons q l ih =>
    obtain ⟨k'', w⟩ := q
    have hc := List.pairwise_cons.mp h
    unfold put
    split
    · rename_i hlt
      refine List.pairwise_cons.mpr ⟨?_, h⟩
      intro p hp
      rcases List.mem_cons.mp hp with rfl | hp
      · exact hlt
      · exact lt_trans hlt (hc.1 p hp)
    · split
      · rename_i hn he
        subst he
        exact List.pairwise_cons.mpr hc
      · rename_i hn he
        refine List.pairwise_cons.mpr ⟨?_, ih hc.2⟩
        intro p hp
        rcases mem_put hp with rfl | hp
        · exact lt_of_le_of_ne (not_lt.mp hn) (fun e => he e.symm)
        · exact hc.1 p hp

theorem find_mem {k : κ} {l : List (κ × β)} {v : β} (h : find k l = some v) : (k, v) ∈ l := by
  induction l with
  | nil => simp [find] at h
  | cons q l ih =>
    obtain ⟨k'', w⟩ := q
    rw [find] at h
    split at h
    · rename_i e
      simp only [Option.some.injEq] at h
      subst e h
      exact List.mem_cons_self
    · exact List.mem_cons_of_mem _ (ih h)

theorem find_of_mem {l : List (κ × β)} (hs : Sorted l) {p : κ × β} (h : p ∈ l) : find p.1 l = some p.2 := by
  induction l with
  | nil => cases h
  | cons q l ih =>
    obtain ⟨k'', w⟩ := q
    have hc := List.pairwise_cons.mp hs
    rw [find]
    rcases List.mem_cons.mp h with rfl | h
    · simp
    · rw [if_neg (ne_of_gt (hc.1 p h)), ih hc.2 h]

/-- Sorted maps with the same contents are equal. -/
theorem sorted_ext {l l' : List (κ × β)} (h : Sorted l) (h' : Sorted l') (e : ∀ k, find k l = find k l') : l = l' := by
  have hsub : ∀ {a b : List (κ × β)}, Sorted a → (∀ k, find k a = find k b) → ∀ p ∈ a, p ∈ b := by
    intro a b ha he p hp
    have := find_of_mem ha hp
    rw [he] at this
    exact find_mem this
  have hperm : l.Perm l' := by
    apply (List.perm_ext_iff_of_nodup _ _).mpr
    · intro p
      exact ⟨hsub h e p, hsub h' (fun k => (e k).symm) p⟩
    · exact h.imp (fun hlt he => absurd (congrArg Prod.fst he) (ne_of_lt hlt))
    · exact h'.imp (fun hlt he => absurd (congrArg Prod.fst he) (ne_of_lt hlt))
  exact hperm.eq_of_pairwise (fun a b _ _ h1 h2 => absurd h1 (lt_asymm h2)) h h'

end Map

theorem mergeStep_sorted {cp : Elem κ D → Elem κ D → Elem κ D} {d0 : D} {acc : List (κ × Elem κ D)} {p : κ × Elem κ D} (h : Sorted acc) :
    Sorted (mergeStep cp d0 acc p) := by
  unfold mergeStep
  split <;> exact sorted_put h

theorem mergeFields_sorted {cp : Elem κ D → Elem κ D → Elem κ D} {d0 : D} (fs : List (κ × Elem κ D)) :
    ∀ gs : List (κ × Elem κ D), Sorted gs → Sorted (mergeFields cp d0 fs gs) := by
  induction fs with
  | nil => intro gs h; exact h
  | cons p fs ih => intro gs h; exact ih _ (mergeStep_sorted h)

theorem mergeFields_find {cp : Elem κ D → Elem κ D → Elem κ D} {d0 : D} (fs : List (κ × Elem κ D)) :
    ∀ gs : List (κ × Elem κ D), Sorted fs → (∀ p ∈ fs, ∀ g, find p.1 gs = some g → cp p.2 g = p.2) →
      (∀ p ∈ fs, cp p.2 (fresh d0) = p.2) → ∀ k, find k (mergeFields cp d0 fs gs) = (find k fs).orElse (fun _ => find k gs) := by
  induction fs with
  | nil => intro gs _ _ _ k; rfl
  | cons p fs ih =>
    intro gs hs h1 h2 k
    have hc := List.pairwise_cons.mp hs
    have hstep : mergeStep cp d0 gs p = put p.1 p.2 gs := by
      unfold mergeStep
      split
      · rename_i g hg
        rw [h1 p List.mem_cons_self g hg]
      · rw [h2 p List.mem_cons_self, h2 p List.mem_cons_self]
    show find k (mergeFields cp d0 fs (mergeStep cp d0 gs p)) = _
    rw [hstep, ih _ hc.2 _ (fun q hq => h2 q (List.mem_cons_of_mem _ hq)), find_put]
    · obtain ⟨k0, e0⟩ := p
      rw [find]
      by_cases hk : k = k0
      · subst hk
        have : find k fs = none := by
          match hf : find k fs with
          | none => rfl
          | some v => exact absurd (hc.1 _ (find_mem hf)) (lt_irrefl _)
        rw [this, if_pos rfl, if_pos rfl]
        rfl
      · rw [if_neg hk, if_neg hk]
    · intro q hq g hg
      have hne : q.1 ≠ p.1 := ne_of_gt (hc.1 q hq)
      rw [find_put, if_neg hne] at hg
      exact h1 q (List.mem_cons_of_mem _ hq) g hg

theorem prune_find {fs gs : List (κ × Elem κ D)} (hs : Sorted gs) (hf : Sorted fs) (hsub : ∀ k, (find k fs).isSome → find k gs = find k fs) :
    Sorted (prune fs gs) ∧ ∀ k, find k (prune fs gs) = find k fs := by
  unfold prune
  split
  · have hsf : Sorted (gs.filter (fun p => (find p.1 fs).isSome)) := hs.filter _
    refine ⟨hsf, fun k => ?_⟩
    match hk : find k fs with
    | none =>
      match hg : find k (gs.filter (fun p => (find p.1 fs).isSome)) with
      | none => rfl
      | some v =>
        have := find_mem hg
        rw [List.mem_filter] at this
        simp [hk] at this
    | some v =>
      have : (k, v) ∈ gs.filter (fun p => (find p.1 fs).isSome) := by
        rw [List.mem_filter]
        exact ⟨find_mem (by rw [hsub k (by simp [hk]), hk]), by simp [hk]⟩
      exact find_of_mem hsf this
  · rename_i hlen
    refine ⟨hs, ?_⟩
    have hmem : fs ⊆ gs := by
      intro p hp
      have h1 := find_of_mem hf hp
      have h2 := hsub p.1 (by simp [h1])
      rw [h1] at h2
      exact find_mem h2
    have hnd : fs.Nodup := hf.imp (fun hlt he => absurd (congrArg Prod.fst he) (ne_of_lt hlt))
    have hperm : fs.Perm gs := (hnd.subperm hmem).perm_of_length_le (Nat.le_of_not_lt hlen)
    have : fs = gs := hperm.eq_of_pairwise (fun a b _ _ h1 h2 => absurd h1 (lt_asymm h2)) hf hs
    rw [this]
    intro k; rfl

/-- A tree of fields of depth at most `n` whose maps are sorted. -/
def WF : Nat → Elem κ D → Prop
  | 0, _ => False
  | n + 1, e => Sorted e.fields ∧ (∀ p ∈ e.fields, WF n p.2) ∧ ∀ c ∈ e.comps, Sorted c.2 ∧ ∀ p ∈ c.2, WF n p.2

/-- A target whose maps are sorted and whose components carry no fields, down to depth `n`. -/
def CleanTarget : Nat → Elem κ D → Prop
  | 0, _ => True
  | n + 1, g => Sorted g.fields ∧ (∀ p ∈ g.fields, CleanTarget n p.2) ∧ ∀ c ∈ g.comps, c.2 = []

theorem cleanTarget_fresh (d0 : D) (n : Nat) : CleanTarget n (fresh (κ := κ) d0) := by
  cases n with
  | zero => trivial
  | succ n => exact ⟨List.Pairwise.nil, fun p hp => absurd hp (List.not_mem_nil), fun c hc => absurd hc (List.not_mem_nil)⟩

/-- **C07 (partial).** After `y = x` the object `y` is a copy of `x`: the same entries and, recursively, exactly the same attached fields with the same contents,
whatever fields `y` had before; for `y` whose components (if it is a product) carry no fields. For all trees of all depths. Without the last condition the
property is false: `C07_component_fields_survive`. -/
theorem C07_assignment_exact_partial (d0 : D) : ∀ (n : Nat) (x y : Elem κ D), WF n x → CleanTarget n y → copyTo d0 n x y = x := by
  intro n
  induction n with
  | zero => intro x y h; exact h.elim
  | succ n ih =>
    intro x y hx hy
    obtain ⟨hx1, hx2, hx3⟩ := hx
    obtain ⟨hy1, hy2, hy3⟩ := hy
    have hfr : ∀ p : κ × Elem κ D, WF n p.2 → copyTo d0 n p.2 (fresh d0) = p.2 := fun p hp => ih _ _ hp (cleanTarget_fresh d0 n)
    have hm : ∀ k, find k (mergeFields (copyTo d0 n) d0 x.fields y.fields) = (find k x.fields).orElse (fun _ => find k y.fields) :=
      mergeFields_find x.fields y.fields hx1
        (fun p hp g hg => ih _ _ (hx2 p hp) (hy2 _ (find_mem hg))) (fun p hp => hfr p (hx2 p hp))
    have hp := prune_find (fs := x.fields) (gs := mergeFields (copyTo d0 n) d0 x.fields y.fields)
      (mergeFields_sorted x.fields y.fields hy1) hx1 (by
        intro k hk
        rw [hm k]
        obtain ⟨v, hv⟩ := Option.isSome_iff_exists.mp hk
        rw [hv]; rfl)
    have e1 : prune x.fields (mergeFields (copyTo d0 n) d0 x.fields y.fields) = x.fields := sorted_ext hp.1 hx1 hp.2
    have hc0 : ∀ c ∈ x.comps, mergeFields (copyTo d0 n) d0 c.2 [] = c.2 := by
      intro c hc
      obtain ⟨hcs, hcw⟩ := hx3 c hc
      apply sorted_ext (mergeFields_sorted c.2 [] List.Pairwise.nil) hcs
      intro k
      rw [mergeFields_find c.2 [] hcs (fun p _ g hg => by simp [find] at hg) (fun p hp => hfr p (hcw p hp))]
      simp [find]
    have e2 : copyComps (copyTo d0 n) d0 x.comps y.comps = x.comps := by
      unfold copyComps
      split
      · rename_i hlen
        have hl : x.comps.length = y.comps.length := by
          have := congrArg List.length hlen
          simpa using this
        apply List.ext_getElem
        · simp [hl]
        · intro i h1 h2
          rw [List.getElem_zipWith]
          have hyi : (y.comps[i]'(by omega)).2 = [] := hy3 _ (List.getElem_mem _)
          rw [hyi, hc0 _ (List.getElem_mem _)]
      · conv_rhs => rw [← List.map_id x.comps]
        apply List.map_congr_left
        intro c hc
        rw [hc0 c hc]; rfl
    show Elem.mk x.data _ _ = x
    rw [e1, e2]
    cases x; rfl

/-- **C07 (finding).** Assigning to a product object of the same layout keeps fields attached to its components that the source does not have: after `y = x`
the component of `y` still shows the field `k` computed from the old value of `y`. -/
theorem C07_component_fields_survive (d0 d d' : D) (k : κ) (e : Elem κ D) (len n : Nat) :
    (copyTo d0 (n + 1) (.mk d [] [(len, [])]) (.mk d' [] [(len, [(k, e)])])) = .mk d [] [(len, [(k, e)])] := by
  simp [copyTo, copyComps, mergeFields, prune, Elem.data, Elem.fields, Elem.comps]

/-- `CopyFieldsTo`: the names of the source win, the other names of the target stay. -/
theorem C07_copy_fields_union (d0 : D) (n : Nat) (fs gs : List (κ × Elem κ D)) (hf : Sorted fs) (hw : ∀ p ∈ fs, WF n p.2)
    (hg : ∀ p ∈ gs, CleanTarget n p.2) :
    ∀ k, find k (mergeFields (copyTo d0 n) d0 fs gs) = (find k fs).orElse (fun _ => find k gs) :=
  mergeFields_find fs gs hf (fun p hp g hgg => C07_assignment_exact_partial d0 n _ _ (hw p hp) (hg _ (find_mem hgg)))
    (fun p hp => C07_assignment_exact_partial d0 n _ _ (hw p hp) (cleanTarget_fresh d0 n))

/-- A source with fields 1 and 3 (the latter with a field of its own) and a target with fields 1 and 2: the hypotheses hold and the copy is exact. -/
example : copyTo (0 : Nat) 3 (.mk 7 [(1, .mk 8 [] []), (3, .mk 9 [(5, .mk 10 [] [])] [])] []) (.mk 1 [(1, .mk 2 [] []), (2, .mk 3 [] [])] []) =
    (.mk 7 [(1, .mk 8 [] []), (3, .mk 9 [(5, .mk 10 [] [])] [])] [] : Elem Nat Nat) := by
  apply C07_assignment_exact_partial
  · simp [WF, Sorted, Elem.fields, Elem.comps]
  · simp [CleanTarget, Sorted, Elem.fields, Elem.comps]

/-! ## C06 -/

/-- Every visible field of the object, and of its components, was attached to the present entries. -/
def Fresh (o : Obj κ V) : Prop :=
  (∀ k s, o.stamps k = some s → s = o.val) ∧
  ∀ c ∈ o.comps, ∀ k s, c.stamps k = some s → ∀ i, c.off ≤ i → i < c.off + c.len → s i = o.val i

/-- Components occupy consecutive slices (C09). -/
def Consecutive (o : Obj κ V) : Prop := o.comps.Pairwise (fun c d => c.off + c.len ≤ d.off)

/-- The calls for which the property holds: not `Conj`, `HaddRankone`, `ScaledIdOPE`; components are written to only while the product itself has no attached field;
a product is assigned to only if its components have no field that the components of the source lack. -/
def Safe (w : World κ V) : Op κ V → Prop
  | .rawWrite _ _ => False
  | .writeComp x _ _ => ∀ k, (w x).stamps k = none
  | .assign y x => ∀ (j : Nat) c d, (w x).comps[j]? = some c → (w y).comps[j]? = some d → ∀ k, c.stamps k = none → d.stamps k = none
  | _ => True

/-- All calls of the history are safe when they are made. -/
def SafeHist : World κ V → List (Op κ V) → Prop
  | _, [] => True
  | w, op :: ops => Safe w op ∧ SafeHist (step w op) ops

theorem update_all {P : Obj κ V → Prop} {w : World κ V} {x : Nat} {o : Obj κ V} (hw : ∀ y, P (w y)) (ho : P o) :
    ∀ y, P (Function.update w x o y) := by
  intro y
  by_cases h : y = x
  · subst h; rw [Function.update_self]; exact ho
  · rw [Function.update_of_ne h]; exact hw y

theorem mem_modify {α : Type} {f : α → α} {j : Nat} {l : List α} {a : α} (h : a ∈ l.modify j f) :
    a ∈ l ∨ ∃ b, l[j]? = some b ∧ a = f b := by
  induction l generalizing j with
  | nil => cases j <;> simp at h
  | cons b l ih =>
    cases j with
    | zero =>
      simp only [List.modify_zero_cons, List.mem_cons] at h
      rcases h with rfl | h
      · exact Or.inr ⟨b, rfl, rfl⟩
      · exact Or.inl (List.mem_cons_of_mem _ h)
    | succ j =>
      simp only [List.modify_succ_cons, List.mem_cons] at h
      rcases h with rfl | h
      · exact Or.inl List.mem_cons_self
      · rcases ih h with h | ⟨c, h1, h2⟩
        · exact Or.inl (List.mem_cons_of_mem _ h)
        · exact Or.inr ⟨c, h1, h2⟩

theorem modify_pairwise {l : List (Comp κ V)} {f : Comp κ V → Comp κ V} (hoff : ∀ c, (f c).off = c.off) (hlen : ∀ c, (f c).len = c.len) (j : Nat)
    (h : l.Pairwise (fun c d => c.off + c.len ≤ d.off)) : (l.modify j f).Pairwise (fun c d => c.off + c.len ≤ d.off) := by
  induction l generalizing j with
  | nil => cases j <;> simp
  | cons b l ih =>
    have hc := List.pairwise_cons.mp h
    cases j with
    | zero =>
      rw [List.modify_zero_cons]
      refine List.pairwise_cons.mpr ⟨fun d hd => ?_, hc.2⟩
      rw [hoff, hlen]; exact hc.1 d hd
    | succ j =>
      rw [List.modify_succ_cons]
      refine List.pairwise_cons.mpr ⟨fun d hd => ?_, ih j hc.2⟩
      rcases mem_modify hd with hd | ⟨c, hc', rfl⟩
      · exact hc.1 d hd
      · rw [hoff]; exact hc.1 c (List.mem_of_getElem? hc')

theorem step_consecutive {w : World κ V} {op : Op κ V} (hc : ∀ x, Consecutive (w x)) : ∀ x, Consecutive (step w op x) := by
  cases op with
  | attach x k => exact update_all (P := Consecutive) hc (hc x)
  | detach x k => exact update_all (P := Consecutive) hc (hc x)
  | write x f =>
    refine update_all (P := Consecutive) hc ?_
    show ((w x).comps.map _).Pairwise _
    exact List.pairwise_map.mpr (hc x)
  | rawWrite x f => exact update_all (P := Consecutive) hc (hc x)
  | attachComp x j k =>
    refine update_all (P := Consecutive) hc ?_
    exact modify_pairwise (f := fun c => { c with stamps := Function.update c.stamps k (some (w x).val) }) (fun _ => rfl) (fun _ => rfl) j (hc x)
  | writeComp x j f =>
    cases hcj : (w x).comps[j]? with
    | none => simp only [step, hcj]; exact hc
    | some c =>
      simp only [step, hcj]
      refine update_all (P := Consecutive) hc ?_
      exact modify_pairwise (f := fun c => { c with stamps := fun _ => none }) (fun _ => rfl) (fun _ => rfl) j (hc x)
  | assign y x =>
    rw [step]
    split
    · exact hc
    · refine update_all (P := Consecutive) hc ?_
      show (assignComps (w x).comps (w y).comps).Pairwise _
      unfold assignComps
      split
      · rename_i hl
        have hl' : (w x).comps.length = (w y).comps.length := by simpa using congrArg List.length hl
        rw [List.pairwise_iff_getElem]
        intro i j hi hj hij
        rw [List.getElem_zipWith, List.getElem_zipWith]
        rw [List.length_zipWith] at hi hj
        exact List.pairwise_iff_getElem.mp (hc x) i j (by omega) (by omega) hij
      · exact hc x

theorem step_fresh {w : World κ V} {op : Op κ V} (hc : ∀ x, Consecutive (w x)) (hf : ∀ x, Fresh (w x)) (hs : Safe w op) :
    ∀ x, Fresh (step w op x) := by
  cases op with
  | attach x k =>
    refine update_all hf ⟨?_, (hf x).2⟩
    intro k' s h
    simp only [] at h
    by_cases hk : k' = k
    · subst hk
      rw [Function.update_self] at h
      exact (Option.some.inj h).symm
    · rw [Function.update_of_ne hk] at h
      exact (hf x).1 k' s h
  | detach x k =>
    refine update_all hf ⟨?_, (hf x).2⟩
    intro k' s h
    simp only [] at h
    by_cases hk : k' = k
    · subst hk
      rw [Function.update_self] at h
      cases h
    · rw [Function.update_of_ne hk] at h
      exact (hf x).1 k' s h
  | write x f =>
    refine update_all hf ⟨?_, ?_⟩
    · intro k s h
      cases h
    · intro c hcm k s h
      simp only [Obj.removeAll, List.mem_map] at hcm
      obtain ⟨c', _, rfl⟩ := hcm
      cases h
  | rawWrite x f => exact hs.elim
  | attachComp x j k =>
    refine update_all hf ⟨(hf x).1, ?_⟩
    intro c hcm k' s h
    rcases mem_modify hcm with hcm | ⟨b, hb, rfl⟩
    · exact (hf x).2 c hcm k' s h
    · intro i h1 h2
      by_cases hk : k' = k
      · subst hk
        simp only [Function.update_self, Option.some.injEq] at h
        rw [← h]
      · simp only [Function.update_of_ne hk] at h
        exact (hf x).2 b (List.mem_of_getElem? hb) k' s h i h1 h2
  | writeComp x j f =>
    cases hcj : (w x).comps[j]? with
    | none => simp only [step, hcj]; exact hf
    | some c =>
      simp only [step, hcj]
      refine update_all hf ⟨?_, ?_⟩
      · intro k s h
        have := hs k
        simp only [] at h
        rw [this] at h
        cases h
      · intro b hbm k s h i h1 h2
        simp only [] at hbm
        -- component `b` of the result is `c` without fields, or another component
        obtain ⟨m, hm, hbm⟩ := List.mem_iff_getElem.mp hbm
        rw [List.length_modify] at hm
        rw [List.getElem_modify] at hbm
        split at hbm
        · subst hbm; cases h
        · rename_i hne
          have hbmem : (w x).comps[m] = b := hbm
          have hbin : b ∈ (w x).comps := by rw [← hbmem]; exact List.getElem_mem _
          have hold := (hf x).2 b hbin k s h i h1 h2
          show s i = sliceWrite c f (w x).val i
          unfold sliceWrite
          rw [if_neg, hold]
          rintro ⟨h3, h4⟩
          obtain ⟨hj, hcj'⟩ := List.getElem?_eq_some_iff.mp hcj
          rcases lt_or_gt_of_ne hne with hlt | hgt
          · have := List.pairwise_iff_getElem.mp (hc x) j m hj hm hlt
            rw [hcj', hbmem] at this
            omega
          · have := List.pairwise_iff_getElem.mp (hc x) m j hm hj hgt
            rw [hcj', hbmem] at this
            omega
  | assign y x =>
    rw [step]
    split
    · exact hf
    · refine update_all hf ⟨(hf x).1, ?_⟩
      intro b hbm k s h i h1 h2
      simp only [assignComps] at hbm
      split at hbm
      · rename_i hl
        obtain ⟨m, hm, hbm⟩ := List.mem_iff_getElem.mp hbm
        rw [List.length_zipWith] at hm
        rw [List.getElem_zipWith] at hbm
        have hmx : m < (w x).comps.length := by omega
        have hmy : m < (w y).comps.length := by omega
        subst hbm
        simp only [mergeStamps] at h
        match hcs : ((w x).comps[m]).stamps k with
        | some s' =>
          rw [hcs] at h
          simp only [Option.orElse_some, Option.some.injEq] at h
          subst h
          exact (hf x).2 _ (List.getElem_mem hmx) k _ hcs i h1 h2
        | none =>
          rw [hcs] at h
          have := hs m _ _ (List.getElem?_eq_getElem hmx) (List.getElem?_eq_getElem hmy) k hcs
          simp only [Option.orElse_none] at h
          rw [this] at h
          cases h
      · exact (hf x).2 b hbm k s h i h1 h2

/-- **C06 (partial).** In every history of safe calls a visible field — of an object or of a component of a product — was attached to exactly the entries the object
has now. Any number of objects, calls, names and components. Not covered: the calls excluded by `Safe`, for which the property is false (theorems below). -/
theorem C06_fields_fresh_partial : ∀ (ops : List (Op κ V)) (w : World κ V), (∀ x, Consecutive (w x)) → (∀ x, Fresh (w x)) → SafeHist w ops →
    ∀ x, Fresh (run w ops x) := by
  intro ops
  induction ops with
  | nil => intro w _ hf _; exact hf
  | cons op ops ih =>
    intro w hc hf hs
    exact ih (step w op) (step_consecutive hc) (step_fresh hc hf hs.1) hs.2

/-- Consequence: after any mutator built on the write accessors none of the fields attached before is visible. -/
theorem C06_write_removes_fields (w : World κ V) (x : Nat) (f : (Nat → V) → (Nat → V)) :
    (∀ k, (step w (.write x f) x).stamps k = none) ∧ ∀ c ∈ (step w (.write x f) x).comps, ∀ k, c.stamps k = none := by
  rw [step, Function.update_self]
  refine ⟨fun k => rfl, fun c hc k => ?_⟩
  simp only [Obj.removeAll, List.mem_map] at hc
  obtain ⟨c', _, rfl⟩ := hc
  rfl

/-- **C06 (finding).** `Conj`, `HaddRankone` and `ScaledIdOPE` keep fields attached before: whenever they change an entry, an attached field is stale. -/
theorem C06_in_place_writers_leave_stale_fields (w : World κ V) (x : Nat) (k : κ) (f : (Nat → V) → (Nat → V)) (h : f (w x).val ≠ (w x).val) :
    ∃ s, (run w [.attach x k, .rawWrite x f] x).stamps k = some s ∧ s ≠ (run w [.attach x k, .rawWrite x f] x).val := by
  refine ⟨(w x).val, ?_, ?_⟩
  · simp [run, step]
  · simp only [run, List.foldl_cons, List.foldl_nil, step, Function.update_self]
    exact fun e => h e.symm

/-- **C06 (finding).** Writing to a component of a product keeps the fields attached to the product. -/
theorem C06_component_write_leaves_stale_fields (w : World κ V) (x j : Nat) (k : κ) (c : Comp κ V) (hj : (w x).comps[j]? = some c)
    (f : (Nat → V) → (Nat → V)) (h : sliceWrite c f (w x).val ≠ (w x).val) :
    ∃ s, (run w [.attach x k, .writeComp x j f] x).stamps k = some s ∧ s ≠ (run w [.attach x k, .writeComp x j f] x).val := by
  refine ⟨(w x).val, ?_, ?_⟩
  · simp [run, step, hj]
  · simp only [run, List.foldl_cons, List.foldl_nil, step, Function.update_self, hj]
    exact fun e => h e.symm

/-- **C06 (finding).** Assigning to a product keeps fields of its components: a field attached to a component of `y` is still visible after `y = x` although the
entries are now those of `x`. -/
theorem C06_assignment_leaves_stale_component_fields :
    ∃ (w : World Nat Nat) (ops : List (Op Nat Nat)), (∀ x, Fresh (w x)) ∧
      (∃ c ∈ (run w ops 0).comps, ∃ s, c.stamps 7 = some s ∧ s c.off ≠ (run w ops 0).val c.off) := by
  refine ⟨fun x => ⟨fun _ => x, fun _ => none, [⟨0, 1, fun _ => none⟩]⟩, [.attachComp 0 0 7, .assign 0 1], ?_, ?_⟩
  · intro x
    refine ⟨(fun k s h => by cases h), (fun c hc k s h => ?_)⟩
    simp only [List.mem_singleton] at hc
    subst hc
    cases h
  · refine ⟨⟨0, 1, fun k => if k = 7 then some (fun _ => 0) else none⟩, ?_, fun _ => 0, rfl, by decide⟩
    simp only [run, List.foldl_cons, List.foldl_nil, step]
    rw [if_neg (by decide), Function.update_self, Function.update_of_ne (by decide), Function.update_self]
    simp only [assignComps, List.modify_zero_cons, List.map_cons, List.map_nil, if_true, List.zipWith_cons_cons, List.zipWith_nil_right, List.mem_singleton,
      Comp.mk.injEq, true_and]
    funext k
    simp only [mergeStamps, Option.orElse_none]
    by_cases h : k = 7
    · subst h; rw [if_pos rfl, Function.update_self]
    · rw [if_neg h, Function.update_of_ne h]

/-- A history satisfying the hypotheses of `C06_fields_fresh_partial`: attach, write, attach, copy, attach to a component, write to it. -/
example : SafeHist (fun x => (⟨fun _ => x, fun _ => none, [⟨0, 1, fun _ => none⟩, ⟨1, 2, fun _ => none⟩]⟩ : Obj Nat Nat))
    [.write 0 (fun v i => v i + 1), .attachComp 0 1 3, .writeComp 0 0 (fun v i => v i * 2), .assign 1 0, .attach 1 4] := by
  simp only [SafeHist, Safe, and_true, true_and, step]
  refine ⟨fun k => ?_, fun j c d _ hd k _ => ?_⟩
  · simp [Function.update_self, Obj.removeAll]
  · simp only [Function.update_self, List.getElem?_cons_zero, Obj.removeAll, List.map_cons, List.modify_succ_cons, List.modify_zero_cons] at hd
    rw [Function.update_of_ne (by decide), Function.update_of_ne (by decide), Function.update_of_ne (by decide)] at hd
    match j, hd with
    | 0, hd => simp only [List.getElem?_cons_zero, Option.some.injEq] at hd; subst hd; rfl
    | 1, hd => simp only [List.getElem?_cons_succ, List.getElem?_cons_zero, Option.some.injEq] at hd; subst hd; rfl
    | (j + 2), hd => simp at hd

end Verif.Fields
