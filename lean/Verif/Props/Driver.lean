/-
C124, C125: the drivers behind the Matlab and Julia interfaces.
-/
import Verif.Iface.Driver
import Mathlib.Data.List.Range
import Mathlib.Tactic.Ring
import Mathlib.Tactic.Linarith

namespace Verif.Driver

/-! ### C124: manifolds and solvers chosen by name -/

/-- The manifold classes a user can name. -/
def classes : List String :=
  ["CFixedRankQ2F", "CStiefel", "CSymFixedRankQ", "Euclidean", "FixedRankE", "FixedRankQ2F",
   "Grassmann", "SPDManifold", "Sphere", "Stiefel", "SymFixedRankQ"]

/-- The sizes a class is constructed with: `m` rows and `n` columns (and the rank `p`) for matrices
that are not square, `n` and `p` for the orthonormal and symmetric ones. -/
def sizes (cls : String) (n m p : ℕ) : List ℕ :=
  if cls ∈ ["CFixedRankQ2F", "FixedRankE", "FixedRankQ2F"] then [m, n, p]
  else if cls = "Euclidean" then [m, n]
  else if cls ∈ ["SPDManifold", "Sphere"] then [n]
  else [n, p]

/-- **C124.** For every name but one the driver builds the manifold of that name with the given
sizes, and names that are not in the list give the null pointer. -/
theorem C124_manifold_by_name_partial (name : String) (n m p : ℕ) (h : name ≠ "FixedRankQ2F") :
    getAManifold name n m p = if name ∈ classes then some ⟨name, sizes name n m p⟩ else none := by
  by_cases hm : name ∈ classes
  · rw [if_pos hm]
    simp only [classes, List.mem_cons, List.not_mem_nil, or_false] at hm
    rcases hm with rfl | rfl | rfl | rfl | rfl | rfl | rfl | rfl | rfl | rfl | rfl
    all_goals first | exact absurd rfl h | simp [getAManifold, sizes]
  · rw [if_neg hm]
    simp only [classes, List.mem_cons, List.not_mem_nil, or_false, not_or] at hm
    obtain ⟨h1, h2, h3, h4, h5, h6, h7, h8, h9, h10, h11⟩ := hm
    simp [getAManifold, *]

/-- **C124 is false as it stands.** Asking for the quotient geometry of fixed-rank matrices by name
gives the embedded geometry, for all sizes. -/
theorem C124_quotient_name_gives_embedded (n m p : ℕ) :
    getAManifold "FixedRankQ2F" n m p = some ⟨"FixedRankE", [m, n, p]⟩ := by
  simp [getAManifold]

/-- **C124, solvers.** The solver used is the one named, and LRBFGS for any other string. -/
theorem C124_solver_by_name (name : String) :
    solverFor name =
      if name ∈ ["RSD", "RNewton", "RCG", "RBroydenFamily", "RWRBFGS", "RBFGS", "RBFGSSub",
        "LRBFGSSub", "RGS", "LRBFGS", "RTRSD", "RTRNewton", "RTRSR1", "LRTRSR1", "ManPG", "AManPG"]
      then name else "LRBFGS" := by
  by_cases hm : name ∈ ["RSD", "RNewton", "RCG", "RBroydenFamily", "RWRBFGS", "RBFGS", "RBFGSSub",
        "LRBFGSSub", "RGS", "LRBFGS", "RTRSD", "RTRNewton", "RTRSR1", "LRTRSR1", "ManPG", "AManPG"]
  · rw [if_pos hm]
    simp only [List.mem_cons, List.not_mem_nil, or_false] at hm
    rcases hm with rfl | rfl | rfl | rfl | rfl | rfl | rfl | rfl | rfl | rfl | rfl | rfl | rfl | rfl |
      rfl | rfl
    all_goals simp [solverFor]
  · rw [if_neg hm]
    simp only [List.mem_cons, List.not_mem_nil, or_false, not_or] at hm
    obtain ⟨h1, h2, h3, h4, h5, h6, h7, h8, h9, h10, h11, h12, h13, h14, h15, h16⟩ := hm
    simp [solverFor, *]

theorem getAManifold_none {name : String} {n m p : ℕ} :
    getAManifold name n m p = none ↔ name ∉ classes := by
  by_cases h : name = "FixedRankQ2F"
  · subst h
    rw [C124_quotient_name_gives_embedded]
    simp [classes]
  · rw [C124_manifold_by_name_partial name n m p h]
    by_cases hm : name ∈ classes <;> simp [hm]

/-- **C124, unknown manifolds.** Parsing the list of factors never reports failure: with an unknown
name anywhere in the list a method is called through the null pointer before the test for it
(Julia). -/
theorem C124_unknown_is_null_call (l : List Spec) (q : Option ℤ)
    (h : ∃ s ∈ l, s.name ∉ classes) : parseJulia q l = .nullCall := by
  induction l generalizing q with
  | nil => obtain ⟨s, hs, _⟩ := h; cases hs
  | cons s t ih =>
    simp only [parseJulia]
    rcases hg : getAManifold s.name s.n s.m s.p with _ | M
    · rfl
    · obtain ⟨u, hu, hn⟩ := h
      rcases List.mem_cons.1 hu with rfl | hu
      · rw [getAManifold_none.2 hn] at hg; cases hg
      · simp only
        rw [ih _ ⟨u, hu, hn⟩]

/-- The same for Matlab. -/
theorem C124_unknown_is_null_call_mex (l : List Spec)
    (h : ∃ s ∈ l, s.name ∉ classes) : parseMex l = .nullCall := by
  induction l with
  | nil => obtain ⟨s, hs, _⟩ := h; cases hs
  | cons s t ih =>
    simp only [parseMex]
    rcases hg : getAManifold s.name s.n s.m s.p with _ | M
    · rfl
    · obtain ⟨u, hu, hn⟩ := h
      rcases List.mem_cons.1 hu with rfl | hu
      · rw [getAManifold_none.2 hn] at hg; cases hg
      · simp only
        rw [ih ⟨u, hu, hn⟩]

/-- **C124, factors (Matlab).** With known names (other than "FixedRankQ2F") the factors are the named
manifolds in order, each with its own parameter set. -/
theorem C124_factors_mex (l : List Spec)
    (h : ∀ s ∈ l, s.name ∈ classes ∧ s.name ≠ "FixedRankQ2F") :
    parseMex l = .done (l.map fun s => ⟨⟨s.name, sizes s.name s.n s.m s.p⟩, some s.paramSet⟩) := by
  induction l with
  | nil => rfl
  | cons s t ih =>
    obtain ⟨h1, h2⟩ := h s List.mem_cons_self
    simp only [parseMex, C124_manifold_by_name_partial _ _ _ _ h2, if_pos h1,
      ih (fun u hu => h u (List.mem_cons_of_mem _ hu)), List.map_cons]

/-- The last explicit parameter set among the entries seen so far, starting from `q`. -/
def lastSet (q : Option ℤ) : List Spec → Option ℤ
  | [] => q
  | s :: t => lastSet (if s.paramSet = -1 then q else some s.paramSet) t

theorem parseJulia_done (l : List Spec) (q : Option ℤ)
    (h : ∀ s ∈ l, s.name ∈ classes ∧ s.name ≠ "FixedRankQ2F") :
    ∃ fs, parseJulia q l = .done fs ∧ fs.length = l.length ∧
      ∀ (i : ℕ) (s : Spec), l[i]? = some s →
        fs[i]? = some ⟨⟨s.name, sizes s.name s.n s.m s.p⟩, lastSet q (l.take (i + 1))⟩ := by
  induction l generalizing q with
  | nil => exact ⟨[], rfl, rfl, fun i s h => by simp at h⟩
  | cons s t ih =>
    obtain ⟨h1, h2⟩ := h s List.mem_cons_self
    obtain ⟨fs, hf, hl, hi⟩ := ih (if s.paramSet ≠ -1 then some s.paramSet else q)
      (fun u hu => h u (List.mem_cons_of_mem _ hu))
    refine ⟨⟨⟨s.name, sizes s.name s.n s.m s.p⟩, if s.paramSet ≠ -1 then some s.paramSet else q⟩ :: fs,
      ?_, by simp [hl], ?_⟩
    · simp only [parseJulia, C124_manifold_by_name_partial _ _ _ _ h2, if_pos h1, hf]
    · intro i u hu
      have hq : (if s.paramSet ≠ -1 then some s.paramSet else q) =
          if s.paramSet = -1 then q else some s.paramSet := by
        by_cases c : s.paramSet = -1 <;> simp [c]
      cases i with
      | zero =>
        simp only [List.getElem?_cons_zero, Option.some.injEq] at hu
        subst hu
        simp [lastSet]
      | succ k =>
        simp only [List.getElem?_cons_succ] at hu ⊢
        rw [hi k u hu, hq]
        simp [lastSet]

/-- **C124, factors (Julia).** With known names the factors are the named manifolds in order, and a
factor with an explicit parameter set gets it. -/
theorem C124_factors_julia_partial (l : List Spec)
    (h : ∀ s ∈ l, s.name ∈ classes ∧ s.name ≠ "FixedRankQ2F") :
    ∃ fs, parseJulia none l = .done fs ∧ fs.length = l.length ∧
      ∀ (i : ℕ) (s : Spec), l[i]? = some s → ∃ q : Option ℤ,
        fs[i]? = some ⟨⟨s.name, sizes s.name s.n s.m s.p⟩, q⟩ ∧
        (s.paramSet ≠ -1 → q = some s.paramSet) ∧
        ((∀ u ∈ l.take (i + 1), u.paramSet = -1) → q = none) := by
  obtain ⟨fs, h1, h2, h3⟩ := parseJulia_done l none h
  refine ⟨fs, h1, h2, fun i s hs => ⟨_, h3 i s hs, ?_, ?_⟩⟩
  · intro hp
    have ht : l.take (i + 1) = l.take i ++ [s] := by
      rw [List.take_add_one, hs]; rfl
    rw [ht]
    have hgen : ∀ (k : List Spec) (q : Option ℤ), lastSet q (k ++ [s]) = some s.paramSet := by
      intro k
      induction k with
      | nil => intro q; simp [lastSet, hp]
      | cons u t ih => intro q; simp only [List.cons_append, lastSet]; exact ih _
    exact hgen _ _
  · intro hall
    have hgen : ∀ (k : List Spec), (∀ u ∈ k, u.paramSet = -1) → lastSet none k = none := by
      intro k
      induction k with
      | nil => intro _; rfl
      | cons u t ih =>
        intro hk
        simp only [lastSet, if_pos (hk u List.mem_cons_self)]
        exact ih (fun w hw => hk w (List.mem_cons_of_mem _ hw))
    exact hgen _ hall

/-- **C124, the default parameter set leaks (Julia).** A factor for which the default parameter set is
requested by −1 gets the set of the factor before it. -/
theorem C124_julia_default_leaks (l : List Spec)
    (h : ∀ s ∈ l, s.name ∈ classes ∧ s.name ≠ "FixedRankQ2F") (i : ℕ) (s u : Spec)
    (hs : l[i]? = some s) (hu : l[i + 1]? = some u) (h1 : s.paramSet ≠ -1) (h2 : u.paramSet = -1) :
    ∃ fs, parseJulia none l = .done fs ∧
      fs[i + 1]? = some ⟨⟨u.name, sizes u.name u.n u.m u.p⟩, some s.paramSet⟩ := by
  obtain ⟨fs, e1, _, e3⟩ := parseJulia_done l none h
  refine ⟨fs, e1, ?_⟩
  rw [e3 _ u hu]
  have ht : l.take (i + 1 + 1) = l.take i ++ [s, u] := by
    rw [List.take_add_one, hu, List.take_add_one, hs]; simp
  rw [ht]
  have hgen : ∀ (k : List Spec) (q : Option ℤ), lastSet q (k ++ [s, u]) = some s.paramSet := by
    intro k
    induction k with
    | nil => intro q; simp [lastSet, h1, h2]
    | cons w t ih => intro q; simp only [List.cons_append, lastSet]; exact ih _
  rw [hgen]

/-- **C124, multiplicities.** Entry `i` of the array of positions is the number of manifolds in the
first `i` entries, and it has one entry more than there are types. -/
theorem C124_positions (l : List Spec) (a : ℕ) :
    (powsInterval a l).length = l.length + 1 ∧
      ∀ i ≤ l.length, (powsInterval a l)[i]? = some (a + ((l.take i).map Spec.mult).sum) := by
  induction l generalizing a with
  | nil =>
    refine ⟨rfl, fun i hi => ?_⟩
    have : i = 0 := by simpa using hi
    subst this; simp [powsInterval]
  | cons s t ih =>
    obtain ⟨h1, h2⟩ := ih (a + s.mult)
    refine ⟨by simp [powsInterval, h1], fun i hi => ?_⟩
    cases i with
    | zero => simp [powsInterval]
    | succ k =>
      simp only [powsInterval, List.getElem?_cons_succ]
      rw [h2 k (by simpa using hi)]
      simp [add_assoc]

theorem tokens_word (w rest : List Char) (cur : List Char) (hw : ∀ c ∈ w, isSep c = false) :
    tokens cur (w ++ rest) = tokens (w.reverse ++ cur) rest := by
  induction w generalizing cur with
  | nil => rfl
  | cons c t ih =>
    simp only [List.cons_append, tokens, hw c List.mem_cons_self, Bool.false_eq_true, if_false]
    rw [ih _ (fun d hd => hw d (List.mem_cons_of_mem _ hd))]
    simp

theorem tokens_seps (s rest : List Char) (hs : ∀ c ∈ s, isSep c = true) :
    tokens [] (s ++ rest) = tokens [] rest := by
  induction s with
  | nil => rfl
  | cons c t ih =>
    simp only [List.cons_append, tokens, hs c List.mem_cons_self, if_true]
    exact ih (fun d hd => hs d (List.mem_cons_of_mem _ hd))

theorem tokens_join (names : List (List Char)) (sep : List Char) (hsep : sep ≠ [])
    (hs : ∀ c ∈ sep, isSep c = true) (hn : ∀ w ∈ names, w ≠ [] ∧ ∀ c ∈ w, isSep c = false) :
    tokens [] (List.intercalate sep names) = names := by
  induction names with
  | nil => simp [tokens]
  | cons w t ih =>
    obtain ⟨h1, h2⟩ := hn w List.mem_cons_self
    have hw : w.reverse ≠ [] := by simpa using h1
    cases t with
    | nil =>
      have e : List.intercalate sep [w] = w ++ [] := by simp [List.intercalate]
      rw [e, tokens_word w [] [] h2]
      simp [tokens, hw]
    | cons u v =>
      have e : List.intercalate sep (w :: u :: v) = w ++ (sep ++ List.intercalate sep (u :: v)) := by
        simp [List.intercalate]
      rw [e, tokens_word w _ [] h2]
      obtain ⟨c, sep', rfl⟩ := List.exists_cons_of_ne_nil hsep
      simp only [List.append_nil, List.cons_append, tokens, hs c List.mem_cons_self, if_true, if_neg hw,
        List.reverse_reverse]
      rw [tokens_seps sep' _ (fun d hd => hs d (List.mem_cons_of_mem _ hd))]
      rw [ih (fun x hx => hn x (List.mem_cons_of_mem _ hx))]

/-- **C124, names from Julia.** The string of names separated by blanks, commas, full stops or hyphens
is taken apart into exactly these names, for any number of nonempty names without separators that
fit into 999 characters. -/
theorem C124_names (names : List (List Char)) (sep : List Char) (hsep : sep ≠ [])
    (hs : ∀ c ∈ sep, isSep c = true) (hn : ∀ w ∈ names, w ≠ [] ∧ ∀ c ∈ w, isSep c = false)
    (h0 : names ≠ []) (hl : (List.intercalate sep names).length < 1000) :
    maniNames (List.intercalate sep names) names.length = some names := by
  unfold maniNames
  rw [tokens_join names sep hsep hs hn]
  rw [if_neg]
  · simp
  · push Not
    exact ⟨hl, by simpa using h0, le_refl _⟩

/-! ### C125: parameters and results of the Julia interface -/

theorem find_zipIdx {K : Type*} (L : List String) (v : String → K) (name : String) (h : name ∈ L) :
    ((L.zipIdx.find? (fun q => q.1 == name)).bind fun q => (L.map v)[q.2]?) = some (v name) := by
  have hex : ∃ q ∈ L.zipIdx, (q.1 == name) = true := by
    obtain ⟨i, hi, e⟩ := List.mem_iff_getElem.1 h
    exact ⟨(name, i), List.mem_zipIdx_iff_getElem?.2 (by rw [List.getElem?_eq_getElem hi, e]), by simp⟩
  rcases hf : L.zipIdx.find? (fun q => q.1 == name) with _ | q
  · rw [List.find?_eq_none] at hf
    obtain ⟨q, hq, e⟩ := hex
    exact absurd e (hf q hq)
  · have h1 := List.find?_some hf
    have h2 := List.mem_of_find?_eq_some hf
    rw [List.mem_zipIdx_iff_getElem?] at h2
    simp only [beq_iff_eq] at h1
    rw [hf]
    simp [h2, h1]

/-- Specification: the fields of the Julia structure of solver parameters declared `Int64` (BeginROPTLIB.jl:39-87). -/
def juliaIntFields : List String :=
  ["IsCheckParams", "IsCheckGradHess", "Stop_Criterion", "NumExtraGF", "TimeBound", "Min_Iteration", "Max_Iteration", "OutputGap", "Verbose", "isconvex",
   "LengthSY", "LineSearch_LS", "IsPureLSInput", "Num_pre_funs", "InitSteptype", "useRand", "Max_Inner_Iter", "Min_Inner_Iter"]

/-- **C125, parameters.** Whatever values a Julia user puts into the parameter structure (its `Int64` fields hold integers), each solver parameter arrives unchanged under its
own name, and −1 leaves the default in place; the two flags that are no solver parameters and names outside the structure are not passed to the solver. -/
theorem C125_parameters {K : Type*} [DecidableEq K] (trunc : K → K) (m1 : K) (v : String → K)
    (hint : ∀ name ∈ juliaIntFields, trunc (v name) = v name) (name : String) :
    (name ∈ juliaOrder → name ≠ "IsCheckParams" → name ≠ "IsCheckGradHess" →
      cppParams trunc m1 (juliaVals v) name = if v name = m1 then none else some (v name)) ∧
    (name ∉ juliaOrder ∨ name = "IsCheckParams" ∨ name = "IsCheckGradHess" →
      cppParams trunc m1 (juliaVals v) name = none) := by
  have hints : ∀ name ∈ cppInts, name ∈ juliaIntFields := by decide
  have htr : (if name ∈ cppInts then trunc (v name) else v name) = v name := by
    by_cases h : name ∈ cppInts
    · rw [if_pos h, hint _ (hints _ h)]
    · rw [if_neg h]
  have hslots : cppSlots = juliaOrder.zipIdx := by decide
  have hins : juliaOrder = "IsCheckParams" :: "IsCheckGradHess" :: cppInserts := by decide
  constructor
  · intro h h1 h2
    have hm : name ∈ cppInserts := by
      rw [hins] at h
      rcases List.mem_cons.1 h with h | h
      · exact absurd h h1
      · rcases List.mem_cons.1 h with h | h
        · exact absurd h h2
        · exact h
    unfold cppParams cppStruct
    rw [if_pos hm, hslots]
    have hf := find_zipIdx juliaOrder v name h
    rcases hq : juliaOrder.zipIdx.find? (fun q => q.1 == name) with _ | q
    · rw [hq] at hf; cases hf
    · rw [hq] at hf
      simp only [Option.bind_some] at hf
      have hf' : (juliaVals v)[q.2]? = some (v name) := hf
      rw [hq]
      simp only [Option.bind_some, hf', Option.map_some, htr]
  · intro h
    have hm : name ∉ cppInserts := by
      rcases h with h | h | h
      · intro hc; exact h (by rw [hins]; exact List.mem_cons_of_mem _ (List.mem_cons_of_mem _ hc))
      · rw [h]; decide
      · rw [h]; decide
    unfold cppParams
    rw [if_neg hm]

theorem putSeg_spec {K : Type*} (N s : ℕ) (l : List K) (M : Mem K) (h : s + l.length ≤ N) :
    ∃ M', putSeg N s l M = some M' ∧ (∀ i < s, M' i = M i) ∧
      ∀ j v, l[j]? = some v → M' (s + j) = some v := by
  induction l generalizing s M with
  | nil => exact ⟨M, rfl, fun _ _ => rfl, fun j v h => by simp at h⟩
  | cons a t ih =>
    simp only [List.length_cons] at h
    obtain ⟨M', h1, h2, h3⟩ := ih (s + 1) (Function.update M s (some a)) (by omega)
    refine ⟨M', ?_, fun i hi => ?_, fun j v hj => ?_⟩
    · simp only [putSeg]; rw [if_pos (by omega), h1]
    · rw [h2 i (by omega), Function.update_of_ne (by omega)]
    · cases j with
      | zero =>
        simp only [List.getElem?_cons_zero, Option.some.injEq] at hj
        rw [Nat.add_zero, h2 s (by omega), Function.update_self, hj]
      | succ k =>
        simp only [List.getElem?_cons_succ] at hj
        have := h3 k v hj
        rwa [show s + 1 + k = s + (k + 1) by omega] at this

/-- The pieces follow each other without gap or overlap. -/
def Consec {K : Type*} : ℕ → List (ℕ × List K) → ℕ → Prop
  | s, [], e => s = e
  | s, (a, l) :: t, e => a = s ∧ Consec (s + l.length) t e

theorem Consec.le {K : Type*} {s e : ℕ} {segs : List (ℕ × List K)} (h : Consec s segs e) : s ≤ e := by
  induction segs generalizing s with
  | nil => exact le_of_eq h
  | cons p t ih => have := ih h.2; omega

theorem putAll_spec {K : Type*} (N : ℕ) (segs : List (ℕ × List K)) (s : ℕ) (M : Mem K)
    (h : Consec s segs N) :
    ∃ M', putAll N segs M = some M' ∧ (∀ i < s, M' i = M i) ∧
      (∀ p ∈ segs, ∀ j v, p.2[j]? = some v → M' (p.1 + j) = some v) ∧
      ∀ i, s ≤ i → i < N → (M' i).isSome := by
  induction segs generalizing s M with
  | nil => exact ⟨M, rfl, fun _ _ => rfl, by simp, fun i h1 h2 => by
      have : s = N := h
      omega⟩
  | cons p t ih =>
    obtain ⟨a, l⟩ := p
    obtain ⟨rfl, hc⟩ := h
    obtain ⟨M1, e1, e2, e3⟩ := putSeg_spec N a l M hc.le
    obtain ⟨M2, f1, f2, f3, f4⟩ := ih (a + l.length) M1 hc
    have hold : ∀ j v, l[j]? = some v → M2 (a + j) = some v := by
      intro j v hj
      have hjl : j < l.length := (List.getElem?_eq_some_iff.1 hj).1
      rw [f2 _ (by omega)]; exact e3 j v hj
    refine ⟨M2, ?_, ?_, ?_, ?_⟩
    · simp only [putAll, e1, Option.bind_some]; exact f1
    · intro i hi; rw [f2 i (by omega), e2 i hi]
    · intro p hp j v hj
      rcases List.mem_cons.1 hp with rfl | hp
      · exact hold j v hj
      · exact f3 p hp j v hj
    · intro i h1 h2
      by_cases c : i < a + l.length
      · have := hold (i - a) _ (List.getElem?_eq_getElem (l := l) (i := i - a) (by omega))
        rw [show a + (i - a) = i by omega] at this
        rw [this]; rfl
      · exact f4 i (by omega) h2

theorem mapM_range {K : Type*} (M : Mem K) (l : List K) (s : ℕ)
    (h : ∀ j v, l[j]? = some v → M (s + j) = some v) :
    (List.range' s l.length).mapM M = some l := by
  induction l generalizing s with
  | nil => rfl
  | cons a t ih =>
    have h0 : M s = some a := h 0 a rfl
    have h1 := ih (s + 1) (fun j v hj => by
      have := h (j + 1) v (by simpa using hj)
      rwa [show s + (j + 1) = s + 1 + j by omega] at this)
    simp only [List.length_cons, List.range'_succ, List.mapM_cons, h0, h1]
    rfl

/-- The lengths every run produces: equally long series and four eigenvalues. -/
structure Result.Ok {K : Type*} (r : Result K) : Prop where
  times : r.times.length = r.funs.length
  grads : r.grads.length = r.funs.length
  eigs : r.eigs.length = 4

theorem pack_spec {K : Type*} (ofNat : ℕ → K) {r : Result K} (h : r.Ok) :
    ∃ M, pack ofNat r = some M ∧
      (∀ p ∈ packSegs ofNat r, ∀ j v, p.2[j]? = some v → M (p.1 + j) = some v) ∧
      ∀ i < packLen r, (M i).isSome := by
  have hc : Consec 0 (packSegs ofNat r) (packLen r) := by
    simp only [packSegs, Consec, packLen, List.length_cons, List.length_nil, h.times, h.grads, h.eigs]
    and_intros <;> first | trivial | omega
  obtain ⟨M, h1, _, h3, h4⟩ := putAll_spec _ _ 0 (fun _ => none) hc
  exact ⟨M, h1, h3, fun i hi => h4 i (Nat.zero_le _) hi⟩

/-- **C125, results.** The array handed to Julia is written within its bounds and completely, starts
with its length, and taking it apart as the Julia function does gives back the final iterate, all
numbers, the three series in the right order and the eigenvalues; for iterates and series of any
length, when the length of the start passed by the user is the length of the iterate. -/
theorem C125_result_partial {K : Type*} (ofNat : ℕ → K) {r : Result K} (h : r.Ok) :
    ∃ M, pack ofNat r = some M ∧ (∀ i < packLen r, (M i).isSome) ∧
      M 0 = some (ofNat (packLen r)) ∧ unpack r.x.length (packLen r) M = some r := by
  obtain ⟨M, h1, h3, h4⟩ := pack_spec ofNat h
  refine ⟨M, h1, h4, h3 (0, [ofNat (packLen r)]) (by simp [packSegs]) 0 _ rfl, ?_⟩
  have one : ∀ a v, (a, [v]) ∈ packSegs ofNat r → M a = some v := fun a v hm =>
    h3 (a, [v]) hm 0 v rfl
  have seg : ∀ a l, (a, l) ∈ packSegs ofNat r → (List.range' a l.length).mapM M = some l :=
    fun a l hm => mapM_range M l a (fun j v hj => h3 (a, l) hm j v hj)
  have els : (packLen r - r.x.length - 16) = 3 * r.funs.length := by unfold packLen; omega
  have ed : (packLen r - r.x.length - 16) / 3 = r.funs.length := by omega
  have em : (packLen r - r.x.length - 16) % 3 = 0 := by omega
  have vx : view M 2 (r.x.length + 1) = some r.x := by
    have := seg 1 r.x (by simp [packSegs])
    unfold view
    rw [show 2 - 1 = 1 by rfl, show r.x.length + 1 + 1 - 2 = r.x.length by omega]; exact this
  have vf : view M (r.x.length + 12 + 1) (r.x.length + 12 + r.funs.length) = some r.funs := by
    have := seg (r.x.length + 12) r.funs (by simp [packSegs])
    unfold view
    rw [show r.x.length + 12 + 1 - 1 = r.x.length + 12 by omega,
      show r.x.length + 12 + r.funs.length + 1 - (r.x.length + 12 + 1) = r.funs.length by omega]
    exact this
  have vt : view M (r.x.length + 12 + r.funs.length + 1) (r.x.length + 12 + 2 * r.funs.length) =
      some r.times := by
    have := seg (r.x.length + 12 + r.funs.length) r.times (by simp [packSegs])
    unfold view
    rw [h.times] at this
    rw [show r.x.length + 12 + r.funs.length + 1 - 1 = r.x.length + 12 + r.funs.length by omega,
      show r.x.length + 12 + 2 * r.funs.length + 1 - (r.x.length + 12 + r.funs.length + 1) =
        r.funs.length by omega]
    exact this
  have vg : view M (r.x.length + 12 + 2 * r.funs.length + 1)
      (r.x.length + 12 + 3 * r.funs.length) = some r.grads := by
    have := seg (r.x.length + 12 + 2 * r.funs.length) r.grads (by simp [packSegs])
    unfold view
    rw [h.grads] at this
    rw [show r.x.length + 12 + 2 * r.funs.length + 1 - 1 = r.x.length + 12 + 2 * r.funs.length by omega,
      show r.x.length + 12 + 3 * r.funs.length + 1 - (r.x.length + 12 + 2 * r.funs.length + 1) =
        r.funs.length by omega]
    exact this
  have ve : view M (r.x.length + 12 + 3 * r.funs.length + 1)
      (r.x.length + 12 + 3 * r.funs.length + 4) = some r.eigs := by
    have := seg (r.x.length + 12 + 3 * r.funs.length) r.eigs (by simp [packSegs])
    unfold view
    rw [h.eigs] at this
    rw [show r.x.length + 12 + 3 * r.funs.length + 1 - 1 = r.x.length + 12 + 3 * r.funs.length by omega,
      show r.x.length + 12 + 3 * r.funs.length + 4 + 1 - (r.x.length + 12 + 3 * r.funs.length + 1) =
        4 by omega]
    exact this
  unfold unpack
  rw [if_neg (by rw [em]; simp), ed]
  simp only [vx, vf, vt, vg, ve,
    one (r.x.length + 1) r.fv (by simp [packSegs]), one (r.x.length + 2) r.gfv (by simp [packSegs]),
    one (r.x.length + 3) r.gfgf0 (by simp [packSegs]), one (r.x.length + 4) r.iter (by simp [packSegs]),
    one (r.x.length + 5) r.nf (by simp [packSegs]), one (r.x.length + 6) r.ng (by simp [packSegs]),
    one (r.x.length + 7) r.nR (by simp [packSegs]), one (r.x.length + 8) r.nV (by simp [packSegs]),
    one (r.x.length + 9) r.nVp (by simp [packSegs]), one (r.x.length + 10) r.nH (by simp [packSegs]),
    one (r.x.length + 11) r.time (by simp [packSegs])]
  rfl

/-- **C125 is false without a start.** When the user passes an empty start (the C++ driver then
chooses a random one), the Julia function takes the array apart as if the iterate were empty: it
fails or returns an empty iterate together with the first entry of the iterate as the final value. -/
theorem C125_no_start_garbled {K : Type*} (ofNat : ℕ → K) {r : Result K} (h : r.Ok) (x0 : K)
    (hx : r.x[0]? = some x0) :
    ∃ M, pack ofNat r = some M ∧
      ∀ r', unpack 0 (packLen r) M = some r' → r'.x = [] ∧ r'.fv = x0 := by
  obtain ⟨M, h1, h3, h4⟩ := pack_spec ofNat h
  refine ⟨M, h1, fun r' hr => ?_⟩
  have hM : M 1 = some x0 := h3 (1, r.x) (by simp [packSegs]) 0 x0 hx
  have hv : view M 2 (0 + 1) = some [] := by
    unfold view
    simp
  unfold unpack at hr
  by_cases c : (packLen r - 0 - 16) % 3 ≠ 0
  · rw [if_pos c] at hr; cases hr
  · rw [if_neg c] at hr
    obtain ⟨y, hy, hr⟩ := Option.bind_eq_some_iff.1 hr
    obtain ⟨w, hw, hr⟩ := Option.bind_eq_some_iff.1 hr
    iterate 14 obtain ⟨_, _, hr⟩ := Option.bind_eq_some_iff.1 hr
    have hr' := Option.some.inj hr
    subst hr'
    rw [hv] at hy
    rw [Nat.zero_add, hM] at hw
    exact ⟨(Option.some.inj hy).symm, (Option.some.inj hw).symm⟩

/-! ### Instances of the hypotheses -/

example : parseMex [⟨"Stiefel", 5, 1, 3, 2, 4⟩, ⟨"Euclidean", 7, 2, 1, 1, 1⟩] =
    .done [⟨⟨"Stiefel", [5, 3]⟩, some 4⟩, ⟨⟨"Euclidean", [2, 7]⟩, some 1⟩] :=
  C124_factors_mex _ (by
    intro s hs
    simp only [List.mem_cons, List.not_mem_nil, or_false] at hs
    rcases hs with rfl | rfl <;> decide)

example : ∃ fs, parseJulia none [⟨"Stiefel", 5, 1, 3, 1, 4⟩, ⟨"Stiefel", 6, 1, 2, 1, -1⟩] = .done fs ∧
    fs[1]? = some ⟨⟨"Stiefel", [6, 2]⟩, some 4⟩ :=
  C124_julia_default_leaks _ (by
    intro s hs
    simp only [List.mem_cons, List.not_mem_nil, or_false] at hs
    rcases hs with rfl | rfl <;> decide) 0 ⟨"Stiefel", 5, 1, 3, 1, 4⟩ ⟨"Stiefel", 6, 1, 2, 1, -1⟩ rfl rfl
    (by decide) rfl

example : parseMex [⟨"Stiefel", 5, 1, 3, 2, 4⟩, ⟨"Oblique", 7, 2, 1, 1, 1⟩] = .nullCall :=
  C124_unknown_is_null_call_mex _ ⟨⟨"Oblique", 7, 2, 1, 1, 1⟩, by simp, by decide⟩

example : maniNames "Stiefel, Sphere, Stiefel".toList 3 =
    some ["Stiefel".toList, "Sphere".toList, "Stiefel".toList] :=
  C124_names ["Stiefel".toList, "Sphere".toList, "Stiefel".toList] [',', ' '] (by simp)
    (by decide) (by decide) (by simp) (by decide)

/-- A run with a two-entry iterate and a series of three. -/
def sampleResult : Result ℕ :=
  ⟨[7, 8], 1, 2, 3, 4, 5, 6, 9, 10, 11, 12, 13, [20, 21, 22], [30, 31, 32], [40, 41, 42], [0, 0, 0, 0]⟩

/-- `theta = 7` (in units of a tenth), everything else by default; conversion to integers rounds to multiples of ten and keeps −10. -/
example : cppParams (fun x : ℤ => 10 * (x / 10)) (-10) (juliaVals fun s => if s = "theta" then 7 else -10) "theta" = some 7 :=
  ((C125_parameters (fun x : ℤ => 10 * (x / 10)) (-10) (fun s => if s = "theta" then 7 else -10) (by decide) "theta").1 (by decide) (by decide) (by decide)).trans (by decide)

example : ∃ M, pack id sampleResult = some M ∧ (∀ i < 27, (M i).isSome) ∧ M 0 = some 27 ∧
    unpack 2 27 M = some sampleResult :=
  C125_result_partial id (r := sampleResult) ⟨rfl, rfl, rfl⟩

example : ∃ M, pack id sampleResult = some M ∧
    ∀ r', unpack 0 27 M = some r' → r'.x = [] ∧ r'.fv = 7 :=
  C125_no_start_garbled id (r := sampleResult) ⟨rfl, rfl, rfl⟩ 7 rfl

end Verif.Driver
