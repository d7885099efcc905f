import Verif.Model.Mergeables
import Verif.Proof.BTree
import Mathlib.Data.List.Induction
/-!
# C12: `MergableMap`
-/
set_option linter.unusedSectionVars false
namespace Bongo
open Std
variable {K : Type u} {V : Type v}

/-- The mutating API of `MergableMap`; `insert_cow` takes anything convertible to a `ValueCow`. -/
inductive MergeCall (K : Type u) (V : Type v) where
  | insert (key : K) (value : V)
  | insertCowOwned (key : K) (value : V)
  | insertCowBorrowed (key : K) (value : V)

def MergeCall.key : MergeCall K V → K
  | .insert k _ | .insertCowOwned k _ | .insertCowBorrowed k _ => k
def MergeCall.value : MergeCall K V → V
  | .insert _ v | .insertCowOwned _ v | .insertCowBorrowed _ v => v

/-- Perform one call. -/
def MergeCall.apply (cmp : K → K → Ordering) (merge : V → V → V × WasChanged)
    (m : MergableMap K V) : MergeCall K V → MergableMap K V × WasChanged
  | .insert k v => MergableMap.insert cmp merge m ⟨k, v⟩
  | .insertCowOwned k v => MergableMap.insertCow cmp merge m (.owned ⟨k, v⟩)
  | .insertCowBorrowed k v => MergableMap.insertCow cmp merge m (.borrowed ⟨k, v⟩)

/-- The map after a history of calls on a new map. -/
def mergeRun (cmp : K → K → Ordering) (merge : V → V → V × WasChanged)
    (ops : List (MergeCall K V)) : MergableMap K V :=
  ops.foldl (fun m op => (op.apply cmp merge m).1) MergableMap.new

/-- Specification: what is stored for a key after the calls `ops`, of which only those with an
equal key matter: the first such key, and the left-to-right merge of their values. -/
def mergeSpec (merge : V → V → V × WasChanged) : List (MergeCall K V) → Option (K × V)
  | [] => none
  | op :: ops => some (op.key, (ops.map (·.value)).foldl (fun a b => (merge a b).1) op.value)

theorem MergeCall.apply_eq (cmp : K → K → Ordering) (merge : V → V → V × WasChanged)
    (m : MergableMap K V) (op : MergeCall K V) :
    op.apply cmp merge m = MergableMap.insert cmp merge m ⟨op.key, op.value⟩ := by
  cases op <;> rfl

theorem entry?_insert {cmp : K → K → Ordering} [TransCmp cmp] {m : BMap K V}
    (hm : BMap.Sorted cmp m) (k : K) (v : V) (a : K) :
    BMap.entry? cmp (BMap.insert cmp m k v) a =
      if cmp a k = .eq then some (((BMap.entry? cmp m k).map (·.1)).getD k, v)
      else BMap.entry? cmp m a := by
  induction m with
  | nil =>
    simp only [BMap.insert, BMap.entry?_cons, BMap.entry?_nil]
    split <;> simp_all
  | cons e m ih =>
    obtain ⟨k', v'⟩ := e
    have hm' := List.pairwise_cons.1 hm
    unfold BMap.insert
    cases hk : cmp k k' with
    | lt =>
      simp only [BMap.entry?_cons (k := a)]
      have hn : BMap.entry? cmp ((k', v') :: m) k = none := by
        cases he : BMap.entry? cmp ((k', v') :: m) k with
        | none => rfl
        | some e =>
          obtain ⟨h1, h2⟩ := BMap.entry?_mem he
          rcases List.mem_cons.1 h1 with rfl | h1
          · simp [hk] at h2
          · have h3 := hm'.1 e h1
            have h4 := TransCmp.lt_trans hk h3
            simp [h4] at h2
      rw [hn]
      split <;> simp
    | eq =>
      simp only [BMap.entry?_cons]
      rw [← cmp_congr_right (cmp := cmp) (a := a) hk]
      simp only [hk, if_true]
      split <;> simp
    | gt =>
      simp only [BMap.entry?_cons, ih hm'.2]
      have hne : ¬ cmp k k' = .eq := by simp [hk]
      simp only [hne, if_false]
      split
      · rename_i h1
        split
        · rename_i h2
          exact absurd ((cmp_congr_left (cmp := cmp) (c := k') h2).symm.trans h1) hne
        · rfl
      · rfl

theorem mergeRun_append (cmp : K → K → Ordering) (merge : V → V → V × WasChanged)
    (ops : List (MergeCall K V)) (op : MergeCall K V) :
    mergeRun cmp merge (ops ++ [op]) = (op.apply cmp merge (mergeRun cmp merge ops)).1 := by
  simp [mergeRun]

theorem mergeSpec_append (merge : V → V → V × WasChanged) (ops : List (MergeCall K V))
    (op : MergeCall K V) : mergeSpec merge (ops ++ [op]) =
      match mergeSpec merge ops with
      | none => some (op.key, op.value)
      | some (k, v) => some (k, (merge v op.value).1) := by
  cases ops with
  | nil => rfl
  | cons o ops => simp [mergeSpec]

theorem mergable_run_aux (cmp : K → K → Ordering) [TransCmp cmp] (merge : V → V → V × WasChanged)
    (ops : List (MergeCall K V)) : BMap.Sorted cmp (mergeRun cmp merge ops) ∧ ∀ k,
      BMap.entry? cmp (mergeRun cmp merge ops) k =
        mergeSpec merge (ops.filter fun op => cmp k op.key == .eq) := by
  induction ops using List.reverseRecOn with
  | nil => exact ⟨BMap.sorted_nil, fun k => rfl⟩
  | append_singleton ops op ih =>
    obtain ⟨ih1, ih2⟩ := ih
    rw [mergeRun_append, MergeCall.apply_eq]
    have hfst : (MergableMap.insert cmp merge (mergeRun cmp merge ops) ⟨op.key, op.value⟩).1 =
        BMap.insert cmp (mergeRun cmp merge ops) op.key
          (match BMap.entry? cmp (mergeRun cmp merge ops) op.key with
            | some old => (merge old.2 op.value).1
            | none => op.value) := by
      unfold MergableMap.insert BMap.get?
      cases BMap.entry? cmp (mergeRun cmp merge ops) op.key <;> rfl
    rw [hfst]
    refine ⟨BMap.sorted_insert ih1 _ _, fun k => ?_⟩
    rw [entry?_insert ih1, List.filter_append]
    by_cases hk : cmp k op.key = .eq
    · have hf : (ops.filter fun o => cmp op.key o.key == .eq) =
          ops.filter fun o => cmp k o.key == .eq := by
        apply List.filter_congr
        intro o _
        rw [cmp_congr_left (cmp := cmp) hk]
      simp only [hk, if_true, ih2 op.key, hf, List.filter_cons, List.filter_nil, beq_self_eq_true]
      rw [mergeSpec_append]
      cases mergeSpec merge (ops.filter fun o => cmp k o.key == .eq) <;> rfl
    · simp [hk, ih2]

/-- C12.  After any history of `insert` and `insert_cow` calls, `get_entry k` is `None` if no call
had a key equal to `k`; otherwise it is the first such key with the left-to-right merge of the
values of all such calls.  Nothing is assumed of the value type's `merge`, and keys that compare
equal need not be identical. -/
theorem mergable_run (cmp : K → K → Ordering) [TransCmp cmp] (merge : V → V → V × WasChanged)
    (ops : List (MergeCall K V)) (k : K) :
    MergableMap.getEntry cmp (mergeRun cmp merge ops) k =
      (mergeSpec merge (ops.filter fun op => cmp k op.key == .eq)).map fun kv => ⟨kv.1, kv.2⟩ := by
  unfold MergableMap.getEntry
  rw [(mergable_run_aux cmp merge ops).2]

/-- C12.  `Changed` is reported exactly for a new key or when the stored value's merge says so. -/
theorem mergable_changed (cmp : K → K → Ordering) [TransCmp cmp] (merge : V → V → V × WasChanged)
    (ops : List (MergeCall K V)) (op : MergeCall K V) :
    (op.apply cmp merge (mergeRun cmp merge ops)).2 = .changed ↔
      ∀ e, MergableMap.getEntry cmp (mergeRun cmp merge ops) op.key = some e →
        (merge e.value op.value).2 = .changed := by
  rw [MergeCall.apply_eq]
  unfold MergableMap.insert MergableMap.getEntry BMap.get?
  cases BMap.entry? cmp (mergeRun cmp merge ops) op.key <;> simp

/-- C12.  `insert` and `insert_cow`, owned or borrowed, have the same effect and result. -/
theorem mergable_interchangeable (cmp : K → K → Ordering) (merge : V → V → V × WasChanged)
    (m : MergableMap K V) (k : K) (v : V) :
    MergableMap.insertCow cmp merge m (.owned ⟨k, v⟩) = MergableMap.insert cmp merge m ⟨k, v⟩ ∧
    MergableMap.insertCow cmp merge m (.borrowed ⟨k, v⟩) = MergableMap.insert cmp merge m ⟨k, v⟩ :=
  ⟨rfl, rfl⟩

/-- A history with two keys where merging is maximum and one call is unchanged. -/
example :
    let merge : Nat → Nat → Nat × WasChanged := fun a b => (max a b, .fromChanged (decide (a < b)))
    let ops : List (MergeCall Nat Nat) :=
      [.insert 5 1, .insertCowBorrowed 3 9, .insertCowOwned 5 7, .insert 3 2]
    mergeRun compare merge ops = [(3, 9), (5, 7)] ∧
      ((MergeCall.insert 5 6).apply compare merge (mergeRun compare merge ops)).2 = .unchanged := by
  decide
end Bongo
