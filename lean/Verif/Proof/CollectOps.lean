import Verif.Proof.CollectMap
/-! Loops whose visits are fixed lists of `CollectMap` operations compute a least fixed point. -/
set_option linter.unusedSectionVars false
namespace Bongo
open Std
variable {K V : Type} [Ord K] [TransOrd K] [LawfulEqOrd K] [Ord V] [TransOrd V] [LawfulEqOrd V]

/-- One `CollectMap` operation with its arguments. -/
inductive CollectOp (K V : Type) where
  | insert (k : K) (v : V)
  | iter (k : K) (vs : List V)
  | fromKey (k src : K)

namespace CollectOp
/-- Running the operation. -/
def apply (m : CollectMap K V) : CollectOp K V → CollectMap K V × WasChanged
  | .insert k v => CollectMap.insert compare compare m k v
  | .iter k vs => CollectMap.insertIter compare compare m k vs
  | .fromKey k src => CollectMap.insertFromKeySet compare compare m k src

/-- Running the operation creates key `k`. -/
def Creates : CollectOp K V → K → Prop
  | .insert k _, k' => k' = k
  | .iter k vs, k' => k' = k ∧ vs ≠ []
  | .fromKey k src, k' => k' = k ∧ k ≠ src

def key : CollectOp K V → K
  | .insert k _ => k
  | .iter k _ => k
  | .fromKey k _ => k

def vals : CollectOp K V → List V
  | .insert _ v => [v]
  | .iter _ vs => vs
  | .fromKey _ _ => []
end CollectOp

/-- The least solution of the operations. -/
inductive Coll (ops : List (CollectOp K V)) : K → V → Prop where
  | insert {k v} : CollectOp.insert k v ∈ ops → Coll ops k v
  | iter {k vs v} : CollectOp.iter k vs ∈ ops → v ∈ vs → Coll ops k v
  | fromKey {k src v} : CollectOp.fromKey k src ∈ ops → Coll ops src v → Coll ops k v

namespace CollectOp
variable {ops : List (CollectOp K V)}

theorem apply_wf {m : CollectMap K V} (h : CollectMap.WF compare compare m) (op : CollectOp K V) :
    CollectMap.WF compare compare (apply m op).1 := by
  cases op with
  | insert k v => exact CollectMap.insert_wf h k v
  | iter k vs => exact CollectMap.insertIter_wf h k vs
  | fromKey k src => exact CollectMap.insertFromKeySet_wf h k src

theorem apply_contains {m : CollectMap K V} (h : CollectMap.WF compare compare m)
    (op : CollectOp K V) (k : K) :
    BMap.get? compare (apply m op).1 k ≠ none ↔ BMap.get? compare m k ≠ none ∨ op.Creates k := by
  cases op with
  | insert k' v =>
    rw [apply, CollectMap.insert_get]
    by_cases hk : k = k' <;> simp [Creates, hk]
  | iter k' vs =>
    rw [apply, CollectMap.insertIter_get h]
    by_cases hk : k = k'
    · subst hk
      by_cases h2 : BMap.get? compare m k = none ∧ vs = []
      · simp [Creates, h2]
      · simp only [↓reduceIte, h2, ne_eq, reduceCtorEq, not_false_eq_true, true_iff, Creates,
          true_and]
        by_cases h3 : BMap.get? compare m k = none
        · exact Or.inr (fun h4 => h2 ⟨h3, h4⟩)
        · exact Or.inl h3
    · simp [Creates, hk]
  | fromKey k' src =>
    rw [apply, CollectMap.insertFromKeySet_get h]
    by_cases hs : k' = src
    · simp [Creates, hs]
    · by_cases hk : k = k' <;> simp [Creates, hk, hs]

abbrev F (m : CollectMap K V) (kv : K × V) : Prop := CollectMap.Has compare m kv.1 kv.2

theorem factPass (ops : List (CollectOp K V)) :
    FactPass ops apply
      (fun m => CollectMap.WF compare compare m ∧ ∀ k v, CollectMap.Has compare m k v → Coll ops k v)
      F (ops.flatMap fun op => (ops.flatMap vals).map (fun v => (op.key, v))) := by
  have univ : ∀ {k : K} {v : V}, Coll ops k v →
      (k, v) ∈ ops.flatMap fun op => (ops.flatMap vals).map (fun v => (op.key, v)) := by
    intro k v h
    have hk : ∃ op ∈ ops, op.key = k := by
      cases h with
      | insert h => exact ⟨_, h, rfl⟩
      | iter h _ => exact ⟨_, h, rfl⟩
      | fromKey h _ => exact ⟨_, h, rfl⟩
    have hv : v ∈ ops.flatMap vals := by
      clear hk
      induction h with
      | insert h => exact List.mem_flatMap.2 ⟨_, h, by simp [vals]⟩
      | iter h h2 => exact List.mem_flatMap.2 ⟨_, h, h2⟩
      | fromKey _ _ ih => exact ih
    obtain ⟨op, h1, h2⟩ := hk
    exact List.mem_flatMap.2 ⟨op, h1, List.mem_map.2 ⟨v, hv, by rw [h2]⟩⟩
  have hinv : ∀ (m : CollectMap K V), ∀ op ∈ ops, (CollectMap.WF compare compare m ∧
      ∀ k v, CollectMap.Has compare m k v → Coll ops k v) →
      (CollectMap.WF compare compare (apply m op).1 ∧
      ∀ k v, CollectMap.Has compare (apply m op).1 k v → Coll ops k v) := by
    rintro m op hop ⟨hwf, hs⟩
    refine ⟨apply_wf hwf op, ?_⟩
    intro k v hv
    cases op with
    | insert k' v' =>
      rcases (CollectMap.has_insert k' v' k v).1 hv with ⟨rfl, rfl⟩ | hv
      · exact .insert hop
      · exact hs _ _ hv
    | iter k' vs =>
      rcases (CollectMap.has_insertIter hwf k' vs k v).1 hv with ⟨rfl, hv'⟩ | hv
      · exact .iter hop hv'
      · exact hs _ _ hv
    | fromKey k' src =>
      rcases (CollectMap.has_insertFromKeySet hwf k' src k v).1 hv with ⟨rfl, hv'⟩ | hv
      · exact .fromKey hop (hs _ _ hv')
      · exact hs _ _ hv
  refine ⟨hinv, ?_, ?_, ?_⟩
  · rintro m op hop ⟨hwf, hs⟩ ⟨k, v⟩ hv
    cases op with
    | insert k' v' => exact (CollectMap.has_insert k' v' k v).2 (Or.inr hv)
    | iter k' vs => exact (CollectMap.has_insertIter hwf k' vs k v).2 (Or.inr hv)
    | fromKey k' src => exact (CollectMap.has_insertFromKeySet hwf k' src k v).2 (Or.inr hv)
  · rintro m op hop ⟨hwf, hs⟩ hc
    have hi := hinv m op hop ⟨hwf, hs⟩
    suffices ∃ x : K × V, ¬ F m x ∧ F (apply m op).1 x by
      obtain ⟨x, h1, h2⟩ := this
      exact ⟨x, univ (hi.2 _ _ h2), h1, h2⟩
    cases op with
    | insert k' v' =>
      exact ⟨(k', v'), (CollectMap.insert_changed k' v').1 hc,
        (CollectMap.has_insert k' v' _ _).2 (Or.inl ⟨rfl, rfl⟩)⟩
    | iter k' vs =>
      obtain ⟨v, h1, h2⟩ := (CollectMap.insertIter_changed hwf k' vs).1 hc
      exact ⟨(k', v), h2, (CollectMap.has_insertIter hwf k' vs _ _).2 (Or.inl ⟨rfl, h1⟩)⟩
    | fromKey k' src =>
      obtain ⟨v, h1, h2⟩ := (CollectMap.insertFromKeySet_changed hwf k' src).1 hc
      exact ⟨(k', v), h2, (CollectMap.has_insertFromKeySet hwf k' src _ _).2 (Or.inl ⟨rfl, h1⟩)⟩
  · rintro m op hop ⟨hwf, hs⟩ hc ⟨k, v⟩ hv
    by_contra hn
    cases op with
    | insert k' v' =>
      rcases (CollectMap.has_insert k' v' k v).1 hv with ⟨rfl, rfl⟩ | hv
      · have := (CollectMap.insert_changed (cmpV := compare) k v).2 hn
        rw [apply, this] at hc; cases hc
      · exact hn hv
    | iter k' vs =>
      rcases (CollectMap.has_insertIter hwf k' vs k v).1 hv with ⟨rfl, hv'⟩ | hv
      · have := (CollectMap.insertIter_changed hwf k vs).2 ⟨v, hv', hn⟩
        rw [apply, this] at hc; cases hc
      · exact hn hv
    | fromKey k' src =>
      rcases (CollectMap.has_insertFromKeySet hwf k' src k v).1 hv with ⟨rfl, hv'⟩ | hv
      · have := (CollectMap.insertFromKeySet_changed hwf k src).2 ⟨v, hv', hn⟩
        rw [apply, this] at hc; cases hc
      · exact hn hv

/-- Sufficient fuel for a loop over these operations. -/
def bound (ops : List (CollectOp K V)) : Nat :=
  (ops.flatMap fun op => (ops.flatMap vals).map (fun v => (op.key, v))).length + 1

theorem contains_changeIter (l : List (CollectOp K V)) {m : CollectMap K V}
    (h : CollectMap.WF compare compare m) (k : K) :
    BMap.get? compare (changeIter l apply m).1 k ≠ none ↔
      BMap.get? compare m k ≠ none ∨ ∃ op ∈ l, op.Creates k := by
  induction l generalizing m with
  | nil => simp [changeIter]
  | cons op l ih =>
    rw [changeIter_cons]
    simp only
    rw [ih (apply_wf h op), apply_contains h op]
    simp [or_assoc]

theorem loop (ops : List (CollectOp K V)) {fuel : Nat} (hf : bound ops ≤ fuel) :
    ∃ m, changeLoop fuel (fun m => .ok (changeIter ops apply m)) [] = .ok m ∧
      CollectMap.WF compare compare m ∧
      (∀ k v, CollectMap.Has compare m k v ↔ Coll ops k v) ∧
      ∀ k, BMap.get? compare m k ≠ none ↔ ∃ op ∈ ops, op.Creates k := by
  have hfp := factPass ops
  have hfp2 : FactPass ops apply
      (fun m => (CollectMap.WF compare compare m ∧
        ∀ k v, CollectMap.Has compare m k v → Coll ops k v) ∧
        ∀ k, BMap.get? compare m k ≠ none → ∃ op ∈ ops, op.Creates k)
      F (ops.flatMap fun op => (ops.flatMap vals).map (fun v => (op.key, v))) := by
    refine ⟨?_, fun m op hop h => hfp.mono m op hop h.1, fun m op hop h => hfp.changed m op hop h.1,
      fun m op hop h => hfp.unchanged m op hop h.1⟩
    rintro m op hop ⟨h1, h2⟩
    refine ⟨hfp.inv m op hop h1, ?_⟩
    intro k hk
    rcases (apply_contains h1.1 op k).1 hk with h | h
    · exact h2 k h
    · exact ⟨op, hop, h⟩
  obtain ⟨m, h1, ⟨⟨h2, h3⟩, h4⟩, ⟨s₁, h5, h6⟩, h7⟩ := hfp2.loop (s := ([] : CollectMap K V))
    ⟨⟨CollectMap.wf_nil, by simp [CollectMap.Has]⟩, by simp⟩ (fuel := fuel) (by
      unfold bound at hf; omega)
  refine ⟨m, h1, h2, fun k v => ⟨h3 k v, ?_⟩, fun k => ⟨h4 k, ?_⟩⟩
  · intro hc
    induction hc with
    | insert hop =>
      obtain ⟨m', k1, k2, k3⟩ := h7 _ hop
      by_contra hn
      have := (CollectMap.insert_changed (cmpV := compare) _ _).2 (fun h => hn ((k2 (_, _)).1 h))
      rw [apply, this] at k3; cases k3
    | iter hop hv =>
      obtain ⟨m', k1, k2, k3⟩ := h7 _ hop
      by_contra hn
      have := (CollectMap.insertIter_changed k1.1.1 _ _).2 ⟨_, hv, fun h => hn ((k2 (_, _)).1 h)⟩
      rw [apply, this] at k3; cases k3
    | fromKey hop _ ih =>
      obtain ⟨m', k1, k2, k3⟩ := h7 _ hop
      by_contra hn
      have := (CollectMap.insertFromKeySet_changed k1.1.1 _ _).2
        ⟨_, (k2 (_, _)).2 ih, fun h => hn ((k2 (_, _)).1 h)⟩
      rw [apply, this] at k3; cases k3
  · rintro ⟨op, hop, hc⟩
    have := (contains_changeIter ops h5.1.1 k).2 (Or.inr ⟨op, hop, hc⟩)
    rw [h6] at this
    exact this
end CollectOp

theorem changeIter_append {ι S : Type} (l₁ l₂ : List ι) (f : S → ι → S × WasChanged) (s : S) :
    changeIter (l₁ ++ l₂) f s =
      ((changeIter l₂ f (changeIter l₁ f s).1).1,
        (changeIter l₁ f s).2.join (changeIter l₂ f (changeIter l₁ f s).1).2) := by
  induction l₁ generalizing s with
  | nil =>
    show changeIter l₂ f s = ((changeIter l₂ f s).1, WasChanged.unchanged.join (changeIter l₂ f s).2)
    rcases changeIter l₂ f s with ⟨a, c⟩
    cases c <;> rfl
  | cons a l ih =>
    rw [List.cons_append, changeIter_cons, ih, changeIter_cons]
    simp only [WasChanged.join_assoc]

/-- Visits that run fixed lists of operations, run together. -/
theorem changeIter_flatMap {ι κ S : Type} (l : List ι) (g : ι → List κ)
    (f : S → κ → S × WasChanged) (s : S) :
    changeIter (l.flatMap g) f s = changeIter l (fun s i => changeIter (g i) f s) s := by
  induction l generalizing s with
  | nil => rfl
  | cons a l ih => rw [List.flatMap_cons, changeIter_append, changeIter_cons, ih]

end Bongo
