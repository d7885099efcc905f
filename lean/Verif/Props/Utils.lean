import Verif.Proof.CollectMap
import Mathlib.Logic.Function.Iterate
import Mathlib.Data.List.Induction
/-!
# Properties C07–C11: the generic algorithms of src/utils.rs
-/
set_option linter.unusedSectionVars false
namespace Bongo
open Std

/-! ## C07 breadth-first search -/
section C07
variable {T : Type u} [Ord T] [TransOrd T] [LawfulEqOrd T]

/-- C07.  For a step function that never panics and finitely many reachable nodes (all of them
in `U`), `breadth_first_search` terminates and returns, in increasing order, exactly the nodes
one or more steps from an initial node. -/
theorem bfs_exact (step : T → List T) (init U : List T)
    (hU : ∀ i ∈ init, ∀ x, Relation.TransGen (fun a b => b ∈ step a) i x → x ∈ U) :
    ∃ s, (∀ fuel, U.length + 2 ≤ fuel →
        breadthFirstSearch compare fuel init (fun x => .ok (step x)) = .ok s) ∧
      s.Pairwise (fun a b => compare a b = .lt) ∧
      ∀ x, x ∈ s ↔ ∃ i ∈ init, Relation.TransGen (fun a b => b ∈ step a) i x := by
  have hR : StepTo (fun x => Res.ok (step x)) = fun a b => b ∈ step a := by
    funext a b; simp [StepTo]
  have hterm : breadthFirstSearch compare (U.length + 2) init (fun x => Res.ok (step x)) ≠ .oof :=
    bfs_terminates (cmp := compare) (U := U) (by rw [hR]; exact hU) (by simp) (by omega)
  cases hr : breadthFirstSearch compare (U.length + 2) init (fun x => Res.ok (step x)) with
  | oof => exact absurd hr hterm
  | panic w => obtain ⟨x, -, h⟩ := bfs_panic hr; simp at h
  | ok s =>
    refine ⟨s, ?_, bfs_sorted hr, ?_⟩
    · intro fuel hf
      rw [← hr]
      exact bfsLoop_mono hf hterm
    · intro x; rw [bfs_mem hr, hR]

/-- C07, the part without the finiteness hypothesis: any answer is the right one, also for step
functions that may panic; an answer means that no call on a reached node panicked. -/
theorem bfs_answer (f : T → Res (List T)) (init : List T) (fuel : Nat) (s : BSet T)
    (h : breadthFirstSearch compare fuel init f = .ok s) :
    (∀ x, x ∈ s ↔ ∃ i ∈ init, Relation.TransGen (fun a b => ∃ l, f a = .ok l ∧ b ∈ l) i x) ∧
    (∀ x, (x ∈ init ∨ x ∈ s) → ∃ l, f x = .ok l) :=
  ⟨bfs_mem h, fun _ hx => bfs_calls_ok h hx⟩

/-- C07: a panic of the search is a panic of the step function on an initial or reached node. -/
theorem bfs_panics (f : T → Res (List T)) (init : List T) (fuel : Nat) (w : Panic)
    (h : breadthFirstSearch compare fuel init f = .panic w) :
    ∃ x, (x ∈ init ∨
      ∃ i ∈ init, Relation.TransGen (fun a b => ∃ l, f a = .ok l ∧ b ∈ l) i x) ∧
      f x = .panic w := bfs_panic h

/-- The hypothesis of `bfs_exact` is met by a graph with a cycle that does not re-enter the
initial node, and the initial node is then missing from the answer. -/
example :
    let step : Nat → List Nat := fun n => if n = 0 then [2, 1] else if n = 1 then [2] else [1]
    (∀ i ∈ [0], ∀ x, Relation.TransGen (fun a b => b ∈ step a) i x → x ∈ [1, 2]) ∧
      breadthFirstSearch compare 4 [0] (fun x => .ok (step x)) = .ok [1, 2] := by
  refine ⟨?_, by decide⟩
  intro i hi x h
  have key : ∀ a b : Nat, b ∈ (if a = 0 then [2, 1] else if a = 1 then [2] else [1]) →
      b ∈ [1, 2] := by intro a b hb; grind
  cases h with
  | single h => exact key _ _ h
  | tail _ h => exact key _ _ h
end C07

/-! ## C08 CollectMap -/
section C08
variable {K : Type u} {V : Type v} [Ord K] [TransOrd K] [LawfulEqOrd K]
variable [Ord V] [TransOrd V] [LawfulEqOrd V]

/-- The mutating API of `CollectMap`. -/
inductive CollectCall (K : Type u) (V : Type v) where
  | insert (key : K) (value : V)
  | insertIter (key : K) (values : List V)
  | insertFromKeySet (key src : K)

/-- Perform one call. -/
def CollectCall.apply (m : CollectMap K V) : CollectCall K V → CollectMap K V × WasChanged
  | .insert k v => CollectMap.insert compare compare m k v
  | .insertIter k vs => CollectMap.insertIter compare compare m k vs
  | .insertFromKeySet k s => CollectMap.insertFromKeySet compare compare m k s

/-- The map after a history of calls on a new map. -/
def collectRun (ops : List (CollectCall K V)) : CollectMap K V :=
  ops.foldl (fun m op => (op.apply m).1) CollectMap.new

/-- Specification: the relation "`v` is stored under `k`" after one more call. -/
def CollectCall.spec (r : K → V → Prop) : CollectCall K V → K → V → Prop
  | .insert k v => fun k' v' => (k' = k ∧ v' = v) ∨ r k' v'
  | .insertIter k vs => fun k' v' => (k' = k ∧ v' ∈ vs) ∨ r k' v'
  | .insertFromKeySet k s => fun k' v' => (k' = k ∧ r s v') ∨ r k' v'

/-- Specification: "`get` returns `Some`" after one more call. -/
def CollectCall.specKeys (p : K → Prop) : CollectCall K V → K → Prop
  | .insert k _ => fun k' => k' = k ∨ p k'
  | .insertIter k vs => fun k' => (k' = k ∧ vs ≠ []) ∨ p k'
  | .insertFromKeySet k s => fun k' => (k' = k ∧ k ≠ s) ∨ p k'

/-- The key an operation writes to. -/
def CollectCall.key : CollectCall K V → K
  | .insert k _ => k
  | .insertIter k _ => k
  | .insertFromKeySet k _ => k

theorem collectRun_wf (ops : List (CollectCall K V)) :
    CollectMap.WF compare compare (collectRun ops) := by
  unfold collectRun
  suffices ∀ m : CollectMap K V, CollectMap.WF compare compare m →
      CollectMap.WF compare compare (ops.foldl (fun m op => (op.apply m).1) m) from
    this _ CollectMap.wf_nil
  induction ops with
  | nil => intro m h; exact h
  | cons op ops ih =>
    intro m h
    apply ih
    cases op with
    | insert k v => exact CollectMap.insert_wf h k v
    | insertIter k v => exact CollectMap.insertIter_wf h k v
    | insertFromKeySet k v => exact CollectMap.insertFromKeySet_wf h k v

theorem collectRun_snoc (ops : List (CollectCall K V)) (op : CollectCall K V) :
    collectRun (ops ++ [op]) = (op.apply (collectRun ops)).1 := by
  simp [collectRun]

/-- C08.  After any history the sets read back through `get` are what the calls put in. -/
theorem collectMap_contents (ops : List (CollectCall K V)) (k : K) (v : V) :
    (∃ s, CollectMap.get compare (collectRun ops) k = some s ∧ v ∈ s) ↔
      ops.foldl CollectCall.spec (fun _ _ => False) k v := by
  induction ops using List.reverseRecOn generalizing k v with
  | nil => simp [collectRun, CollectMap.new, CollectMap.get]
  | append_singleton ops op ih =>
    rw [collectRun_snoc, List.foldl_append]
    have hw := collectRun_wf ops
    cases op with
    | insert k' v' =>
      simp only [List.foldl_cons, List.foldl_nil, CollectCall.spec, ← ih]
      exact CollectMap.has_insert k' v' k v
    | insertIter k' v' =>
      simp only [List.foldl_cons, List.foldl_nil, CollectCall.spec, ← ih]
      exact CollectMap.has_insertIter hw k' v' k v
    | insertFromKeySet k' v' =>
      simp only [List.foldl_cons, List.foldl_nil, CollectCall.spec, ← ih]
      exact CollectMap.has_insertFromKeySet hw k' v' k v

/-- C08.  After any history, exactly these keys are present (possibly with an empty set). -/
theorem collectMap_keys (ops : List (CollectCall K V)) (k : K) :
    (CollectMap.get compare (collectRun ops) k ≠ none) ↔
      ops.foldl CollectCall.specKeys (fun _ => False) k := by
  classical
  induction ops using List.reverseRecOn generalizing k with
  | nil => simp [collectRun, CollectMap.new, CollectMap.get]
  | append_singleton ops op ih =>
    rw [collectRun_snoc, List.foldl_append]
    have hw := collectRun_wf ops
    cases op with
    | insert k' v' =>
      simp only [List.foldl_cons, List.foldl_nil, CollectCall.specKeys, ← ih, CollectCall.apply,
        CollectMap.get, CollectMap.insert_get]
      by_cases h : k = k' <;> simp [h]
    | insertIter k' v' =>
      simp only [List.foldl_cons, List.foldl_nil, CollectCall.specKeys, ← ih, CollectCall.apply,
        CollectMap.get, CollectMap.insertIter_get hw]
      by_cases h : k = k'
      · subst h
        by_cases h2 : BMap.get? compare (collectRun ops) k = none <;> by_cases h3 : v' = [] <;>
          simp [h2, h3]
      · simp [h]
    | insertFromKeySet k' v' =>
      simp only [List.foldl_cons, List.foldl_nil, CollectCall.specKeys, ← ih, CollectCall.apply,
        CollectMap.get, CollectMap.insertFromKeySet_get hw]
      by_cases h : k = k' <;> by_cases h2 : k' = v' <;> simp [h, h2]

/-- C08.  After any history the next call reports `Changed` exactly when the set stored under
its key gains an element. -/
theorem collectMap_reports (ops : List (CollectCall K V)) (op : CollectCall K V) :
    (op.apply (collectRun ops)).2 = .changed ↔
      ∃ v, ops.foldl CollectCall.spec (fun _ _ => False) op.key v = False ∧
        op.spec (ops.foldl CollectCall.spec (fun _ _ => False)) op.key v := by
  have hw := collectRun_wf ops
  have hc : ∀ k v, ops.foldl CollectCall.spec (fun _ _ => False) k v ↔
      CollectMap.Has compare (collectRun ops) k v := fun k v => (collectMap_contents ops k v).symm
  simp only [eq_iff_iff, iff_false, hc]
  cases op with
  | insert k v =>
    simp only [CollectCall.apply, CollectMap.insert_changed, CollectCall.key, CollectCall.spec, hc]
    grind
  | insertIter k vs =>
    simp only [CollectCall.apply, CollectMap.insertIter_changed hw, CollectCall.key, CollectCall.spec, hc]
    grind
  | insertFromKeySet k s =>
    simp only [CollectCall.apply, CollectMap.insertFromKeySet_changed hw, CollectCall.key,
      CollectCall.spec, hc]
    grind

/-- C08.  Stored sets and keys iterate in strictly increasing order. -/
theorem collectMap_sorted (ops : List (CollectCall K V)) :
    (collectRun ops).Pairwise (fun a b => compare a.1 b.1 = .lt) ∧
      ∀ k s, CollectMap.get compare (collectRun ops) k = some s →
        s.Pairwise (fun a b => compare a b = .lt) :=
  ⟨(collectRun_wf ops).keys, (collectRun_wf ops).sets⟩

/-- A history in which an operation creates an entry and yet reports `Unchanged`. -/
example :
    let ops : List (CollectCall Nat Nat) := [.insertIter 1 [5, 4, 5], .insertFromKeySet 2 1]
    collectRun ops = [(1, [4, 5]), (2, [4, 5])] ∧
      (CollectCall.apply (collectRun ops) (.insertFromKeySet 7 8)) =
        ([(1, [4, 5]), (2, [4, 5]), (7, [])], .unchanged) := by decide
end C08

/-! ## C09 change loops -/
section C09
variable {S : Type u}

/-- C09.  `change_loop` returns `s'` exactly when `s'` is the state left by the first call that
reported `Unchanged` (all earlier calls having reported `Changed`). -/
theorem changeLoop_exact (f : S → S × WasChanged) (s s' : S) :
    (∃ fuel, changeLoop fuel (fun x => .ok (f x)) s = .ok s') ↔
      ∃ n, s' = (fun x => (f x).1)^[n + 1] s ∧
        (f ((fun x => (f x).1)^[n] s)).2 = .unchanged ∧
        ∀ m < n, (f ((fun x => (f x).1)^[m] s)).2 = .changed := by
  constructor
  · rintro ⟨fuel, h⟩
    induction fuel generalizing s with
    | zero => simp [changeLoop] at h
    | succ k ih =>
      rw [changeLoop] at h
      rcases hf : f s with ⟨s1, c⟩
      simp only [hf] at h
      cases c with
      | changed =>
        obtain ⟨n, h1, h2, h3⟩ := ih s1 h
        have hs1 : (f s).1 = s1 := by simp [hf]
        refine ⟨n + 1, ?_, ?_, ?_⟩
        · rw [Function.iterate_succ_apply, hs1]; exact h1
        · rw [Function.iterate_succ_apply, hs1]; exact h2
        · intro m hm
          cases m with
          | zero => simp [hf]
          | succ m => rw [Function.iterate_succ_apply, hs1]; exact h3 m (by omega)
      | unchanged =>
        simp only [Res.ok.injEq] at h
        exact ⟨0, by simp [hf, h], by simp [hf], by simp⟩
  · rintro ⟨n, h1, h2, h3⟩
    refine ⟨n + 1, ?_⟩
    induction n generalizing s with
    | zero =>
      rcases hf : f s with ⟨s1, c⟩
      simp [hf] at h1 h2
      simp [changeLoop, hf, h1, h2]
    | succ n ih =>
      rcases hf : f s with ⟨s1, c⟩
      have hs1 : (f s).1 = s1 := by simp [hf]
      have hc : c = .changed := by have := h3 0 (by omega); simpa [hf] using this
      rw [changeLoop, hf, hc]
      simp only
      apply ih
      · rw [h1, Function.iterate_succ_apply, hs1]
      · rw [Function.iterate_succ_apply, hs1] at h2; exact h2
      · intro m hm
        have := h3 (m + 1) (by omega)
        rwa [Function.iterate_succ_apply, hs1] at this

/-- C09.  `change_iter` visits the items in order, threading the state, and reports `Changed`
iff some visit did. -/
theorem changeIter_exact {ι : Type v} (l : List ι) (f : S → ι → S × WasChanged) (s : S) :
    (changeIter l f s).1 = l.foldl (fun s i => (f s i).1) s ∧
      ((changeIter l f s).2 = .changed ↔
        ∃ pre i post, l = pre ++ i :: post ∧
          (f (pre.foldl (fun s i => (f s i).1) s) i).2 = .changed) := by
  refine ⟨changeIter_fst l f s, ?_⟩
  induction l generalizing s with
  | nil => simp
  | cons a l ih =>
    rw [changeIter_cons, WasChanged.join_eq_changed, ih]
    constructor
    · rintro (h | ⟨pre, i, post, rfl, h⟩)
      · exact ⟨[], a, l, rfl, h⟩
      · exact ⟨a :: pre, i, post, rfl, h⟩
    · rintro ⟨pre, i, post, he, h⟩
      cases pre with
      | nil => simp at he; rw [he.1]; exact Or.inl h
      | cons b pre =>
        simp at he
        rw [he.1]
        exact Or.inr ⟨pre, i, post, he.2, h⟩

/-- C09.  `fixed_point` returns `x` exactly when `x` is the first fixed point among the iterates
of `apply` on `start`. -/
theorem fixedPoint_exact [DecidableEq S] (apply : S → S) (start x : S) :
    (∃ fuel, fixedPoint fuel start apply = .ok x) ↔
      ∃ n, x = apply^[n] start ∧ apply x = x ∧
        ∀ m < n, apply (apply^[m] start) ≠ apply^[m] start := by
  constructor
  · rintro ⟨fuel, h⟩
    induction fuel generalizing start with
    | zero => simp [fixedPoint] at h
    | succ k ih =>
      rw [fixedPoint] at h
      by_cases hs : apply start = start
      · simp only [hs, ↓reduceIte, Res.ok.injEq] at h
        subst h
        exact ⟨0, rfl, hs, by simp⟩
      · simp only [hs, ↓reduceIte] at h
        obtain ⟨n, h1, h2, h3⟩ := ih _ h
        refine ⟨n + 1, by rw [Function.iterate_succ_apply]; exact h1, h2, ?_⟩
        intro m hm
        cases m with
        | zero => exact hs
        | succ m => rw [Function.iterate_succ_apply]; exact h3 m (by omega)
  · rintro ⟨n, h1, h2, h3⟩
    refine ⟨n + 1, ?_⟩
    induction n generalizing start with
    | zero => simp at h1; subst h1; simp [fixedPoint, h2]
    | succ n ih =>
      have hs : apply start ≠ start := h3 0 (by omega)
      rw [fixedPoint]
      simp only [hs, ↓reduceIte]
      apply ih
      · rw [h1, Function.iterate_succ_apply]
      · intro m hm
        have := h3 (m + 1) (by omega)
        rwa [Function.iterate_succ_apply] at this

example : fixedPoint 10 17 (fun n => n / 2) = .ok 0 := by decide
example : changeLoop 10 (fun n => .ok (n / 2, .fromChanged (n ≠ 0))) 17 = .ok 0 := by decide
end C09

/-! ## C10 `apply_fixed_point` -/
section C10
variable {K : Type u} {V : Type v} [Ord K] [TransOrd K] [LawfulEqOrd K]

theorem applyFixedPointMerge_keys (proc : FixedPointProcessor K V) (st : BMap K V × BSet K)
    (kv : K × V) (k : K) (h : BMap.get? compare st.1 k ≠ none) :
    BMap.get? compare (applyFixedPointMerge compare proc st kv).1 k ≠ none := by
  unfold applyFixedPointMerge
  split <;> simp only [BMap.get?_insert] <;> split <;> simp_all

theorem applyFixedPointRound_ok (proc : FixedPointProcessor K V) (currs : List K)
    (st : BMap K V × BSet K) (h : ∀ k ∈ currs, BMap.get? compare st.1 k ≠ none) :
    ∃ st', applyFixedPointRound compare proc currs st = .ok st' ∧
      ∀ k, BMap.get? compare st.1 k ≠ none → BMap.get? compare st'.1 k ≠ none := by
  induction currs generalizing st with
  | nil => exact ⟨st, rfl, fun _ h => h⟩
  | cons c cs ih =>
    rw [applyFixedPointRound]
    cases hg : BMap.get? compare st.1 c with
    | none => exact absurd hg (h c (by simp))
    | some v =>
      simp only
      have hk : ∀ (l : List (K × V)) (st : BMap K V × BSet K) (k : K),
          BMap.get? compare st.1 k ≠ none →
          BMap.get? compare (l.foldl (applyFixedPointMerge compare proc) st).1 k ≠ none := by
        intro l
        induction l with
        | nil => intro st k h; exact h
        | cons a l ih' => intro st k h; exact ih' _ _ (applyFixedPointMerge_keys proc st a k h)
      obtain ⟨st', h1, h2⟩ := ih ((proc.next c v).foldl (applyFixedPointMerge compare proc) st)
        (fun k hk' => hk _ _ _ (h k (by simp [hk'])))
      exact ⟨st', h1, fun k hk' => h2 k (hk _ _ _ hk')⟩

/-- C10 is false of the code: on every nonempty target `apply_fixed_point` runs forever,
whatever the processor (with every fuel it is still running). -/
theorem apply_fixed_point_diverges (proc : FixedPointProcessor K V) (target : BMap K V)
    (hne : target ≠ []) (fuel : Nat) : applyFixedPoint compare fuel proc target = .oof := by
  unfold applyFixedPoint
  have hcur : ∀ k ∈ BSet.ofList compare (BMap.keys target), BMap.get? compare target k ≠ none := by
    intro k hk
    rw [BSet.mem_ofList, BMap.mem_keys (cmp := compare)] at hk
    unfold BMap.contains at hk
    intro h; simp [h] at hk
  have hcne : BSet.ofList compare (BMap.keys target) ≠ [] := by
    cases target with
    | nil => exact absurd rfl hne
    | cons a t =>
      have : a.1 ∈ BSet.ofList compare (BMap.keys (a :: t)) := by
        rw [BSet.mem_ofList]; simp [BMap.keys]
      intro h; rw [h] at this; simp at this
  generalize BSet.ofList compare (BMap.keys target) = currs at hcur hcne
  suffices ∀ st : BMap K V × BSet K, (∀ k ∈ currs, BMap.get? compare st.1 k ≠ none) →
      applyFixedPointLoop compare fuel proc currs st = .oof from this _ hcur
  induction fuel with
  | zero =>
    intro st _
    cases currs with
    | nil => exact absurd rfl hcne
    | cons c cs => rfl
  | succ n ih =>
    intro st hst
    cases currs with
    | nil => exact absurd rfl hcne
    | cons c cs =>
      obtain ⟨st', h1, h2⟩ := applyFixedPointRound_ok proc (c :: cs) st hst
      rw [applyFixedPointLoop, h1]
      exact ih st' (fun k hk => h2 k (hst k hk))

/-- C10, what remains: the empty target is returned unchanged at once. -/
theorem apply_fixed_point_partial (proc : FixedPointProcessor K V) (fuel : Nat) :
    applyFixedPoint compare fuel proc ([] : BMap K V) = .ok [] := by
  cases fuel <;> rfl

/-- The hypothesis of the divergence theorem is met even by a processor that asks for nothing. -/
example : applyFixedPoint compare 100 (K := Nat) (V := Nat)
    { next := fun _ _ => [], merge := fun a _ => (a, .unchanged) } [(1, 1)] = .oof :=
  apply_fixed_point_diverges _ _ (by simp) _
end C10

/-! ## C11 grouping helpers -/
section C11
variable {K : Type u} {V : Type v} [Ord K] [TransOrd K] [LawfulEqOrd K]
variable [Ord V] [TransOrd V] [LawfulEqOrd V]

/-- C11.  `merge_value_pairs` maps each key to exactly the values paired with it; keys and
values come in increasing order and no group is empty. -/
theorem mergeValuePairs_exact (l : List (K × V)) :
    (mergeValuePairs compare compare l).Pairwise (fun a b => compare a.1 b.1 = .lt) ∧
    (∀ k, k ∈ (mergeValuePairs compare compare l).map (·.1) ↔ ∃ v, (k, v) ∈ l) ∧
    (∀ k s, (k, s) ∈ mergeValuePairs compare compare l →
      s ≠ [] ∧ s.Pairwise (fun a b => compare a b = .lt) ∧ ∀ v, v ∈ s ↔ (k, v) ∈ l) := by
  have hw := mergeValuePairs_wf (cmpK := compare) (cmpV := compare) l
  have hh := mergeValuePairs_has (cmpK := compare) (cmpV := compare) l
  refine ⟨hw.keys, ?_, ?_⟩
  · intro k
    constructor
    · intro h
      obtain ⟨⟨k', s⟩, hm, rfl⟩ := List.mem_map.1 h
      have hg := (BMap.mem_iff_get? hw.keys k' s).1 hm
      have hne := mergeValuePairs_nonempty (cmpK := compare) (cmpV := compare) l k'
      cases s with
      | nil => exact absurd hg hne
      | cons v s => exact ⟨v, (hh k' v).1 ⟨_, hg, by simp⟩⟩
    · rintro ⟨v, hv⟩
      obtain ⟨s, hs, -⟩ := (hh k v).2 hv
      exact List.mem_map.2 ⟨(k, s), (BMap.mem_iff_get? hw.keys k s).2 hs, rfl⟩
  · intro k s hm
    have hg := (BMap.mem_iff_get? hw.keys k s).1 hm
    refine ⟨?_, hw.sets k s hg, ?_⟩
    · rintro rfl; exact mergeValuePairs_nonempty l k hg
    · intro v
      rw [← hh]
      constructor
      · intro h; exact ⟨s, hg, h⟩
      · rintro ⟨s', hs', h⟩; rw [hg] at hs'; cases hs'; exact h

/-- C11.  `take_only` returns `Some(v)` iff the iterator yields exactly `v`. -/
theorem takeOnly_exact {α : Type u} (l : List α) (v : α) : takeOnly l = some v ↔ l = [v] := by
  match l with
  | [] => simp [takeOnly]
  | [a] => simp [takeOnly]
  | a :: b :: l => simp [takeOnly]

example : mergeValuePairs compare compare [(2, 9), (1, 7), (2, 3), (2, 9)] =
    [(1, [7]), (2, [3, 9])] := by decide
end C11
end Bongo
