import Verif.Model.Name
import Mathlib.Data.List.Induction
import Mathlib.Data.List.Count
/-!
# C14: `Name`s do not alias
-/
set_option linter.unusedSectionVars false
namespace Bongo

/-- Operations on names.  Those that may allocate carry the address the allocator chose. -/
inductive NameCall where
  | new (a : Nat) (s : String)
  | clone (i : Nat)
  | makeMut (i b : Nat) (f : String → String)
  | drop (i : Nat)

def NameCall.apply (st : NameState) : NameCall → NameState
  | .new a s => st.new a s
  | .clone i => st.clone i
  | .makeMut i b f => st.makeMut i b f
  | .drop i => st.drop i

/-- The allocator only hands out addresses that are not in use. -/
def NameCall.Fresh (st : NameState) : NameCall → Prop
  | .new a _ => st.heap a = none
  | .makeMut _ b _ => st.heap b = none
  | _ => True

/-- The states of programs: any history of operations with any allocator. -/
inductive NameRun : List NameCall → NameState → Prop where
  | init : NameRun [] .init
  | step {ops st op} : NameRun ops st → op.Fresh st → NameRun (ops ++ [op]) (op.apply st)

/-- Specification: names as independent strings (`none` once dropped).  An operation on a name that
does not exist (any more) is not a program; it does nothing here. -/
def NameCall.spec (ss : List (Option String)) : NameCall → List (Option String)
  | .new _ s => ss ++ [some s]
  | .clone i => match ss[i]? with
    | some (some s) => ss ++ [some s]
    | _ => ss
  | .makeMut i _ f => match ss[i]? with
    | some (some s) => ss.set i (some (f s))
    | _ => ss
  | .drop i => match ss[i]? with
    | some (some _) => ss.set i none
    | _ => ss

def nameSpec (ops : List NameCall) : List (Option String) := ops.foldl NameCall.spec []

/-- Every live slot points to a live allocation, and counts are the numbers of live slots. -/
structure NameState.Inv (st : NameState) (ss : List (Option String)) : Prop where
  counts : ∀ a s n, st.heap a = some (s, n) → 0 < n ∧ n = st.slots.count (some a)
  live : ∀ a, some a ∈ st.slots → ∃ s n, st.heap a = some (s, n)
  strs : ss = st.slots.map fun o => o.bind fun a => (st.heap a).map (·.1)

theorem NameState.Inv.spec_get {st : NameState} {ss} (h : st.Inv ss) (i : Nat) :
    ss[i]? = (st.slots[i]?).map fun o => o.bind fun a => (st.heap a).map (·.1) := by
  rw [h.strs, List.getElem?_map]

theorem slot_count_set (l : List (Option Nat)) (i : Nat) (x y a : Option Nat) (h : l[i]? = some x) :
    (l.set i y).count a + (if x = a then 1 else 0) = l.count a + (if y = a then 1 else 0) := by
  induction l generalizing i with
  | nil => simp at h
  | cons b l ih =>
    cases i with
    | zero =>
      simp only [List.getElem?_cons_zero, Option.some.injEq] at h
      subst h
      simp only [List.set_cons_zero, List.count_cons, beq_iff_eq]
      omega
    | succ i =>
      simp only [List.getElem?_cons_succ] at h
      have := ih i h
      simp only [List.set_cons_succ, List.count_cons]
      omega

theorem NameState.Inv.dead {st : NameState} {ss} (h : st.Inv ss) {b} (hb : st.heap b = none) :
    some b ∉ st.slots := fun hm => by
  obtain ⟨s, n, h'⟩ := h.live b hm; rw [hb] at h'; cases h'

theorem NameState.Inv.step {st : NameState} {ss} (h : st.Inv ss) {op : NameCall} (hf : op.Fresh st) :
    (op.apply st).Inv (op.spec ss) := by
  cases op with
  | new a s =>
    have hd := h.dead hf
    refine ⟨?_, ?_, ?_⟩
    · intro b s' n hb
      simp only [NameCall.apply, NameState.new, NameState.write, List.count_append,
        List.count_cons, List.count_nil] at hb ⊢
      by_cases hba : b = a
      · subst hba
        simp only [if_true, Option.some.injEq, Prod.mk.injEq] at hb
        obtain ⟨rfl, rfl⟩ := hb
        simp [List.count_eq_zero.2 hd]
      · rw [if_neg hba] at hb
        have := h.counts b s' n hb
        simp [Ne.symm hba, this.1, ← this.2]
    · intro b hb
      simp only [NameCall.apply, NameState.new, NameState.write, List.mem_append,
        List.mem_singleton, Option.some.injEq] at hb ⊢
      by_cases hba : b = a
      · exact ⟨s, 1, if_pos hba⟩
      · rw [if_neg hba]
        exact h.live b (hb.resolve_right hba)
    · simp only [NameCall.apply, NameState.new, NameCall.spec, List.map_append, List.map_cons,
        List.map_nil]
      rw [h.strs]
      congr 1
      · apply List.map_congr_left
        intro o ho
        cases o with
        | none => rfl
        | some b =>
          have : b ≠ a := fun hba => hd (hba ▸ ho)
          simp [NameState.write, this]
      · simp [NameState.write]
  | clone i =>
    have hsg := h.spec_get i
    simp only [NameCall.apply, NameState.clone, NameCall.spec]
    cases hi : st.slots[i]? with
    | none => rw [hi] at hsg; rw [hsg]; exact h
    | some o =>
      cases o with
      | none => rw [hi] at hsg; rw [hsg]; exact h
      | some a =>
        have hmem := List.mem_of_getElem? hi
        obtain ⟨s, n, ha⟩ := h.live a hmem
        rw [hi] at hsg
        simp only [Option.map_some, Option.bind_some, ha] at hsg
        rw [hsg]
        simp only [ha]
        refine ⟨?_, ?_, ?_⟩
        · intro b s' n' hb
          simp only [NameState.write, List.count_append, List.count_cons, List.count_nil] at hb ⊢
          by_cases hba : b = a
          · subst hba
            simp only [if_true, Option.some.injEq, Prod.mk.injEq] at hb
            obtain ⟨rfl, rfl⟩ := hb
            have := h.counts b s n ha
            simp [← this.2]
          · rw [if_neg hba] at hb
            have := h.counts b s' n' hb
            simp [Ne.symm hba, this.1, ← this.2]
        · intro b hb
          simp only [NameState.write, List.mem_append, List.mem_singleton,
            Option.some.injEq] at hb ⊢
          by_cases hba : b = a
          · exact ⟨s, n + 1, if_pos hba⟩
          · rw [if_neg hba]
            exact h.live b (hb.resolve_right hba)
        · simp only [List.map_append, List.map_cons, List.map_nil]
          rw [h.strs]
          congr 1
          · apply List.map_congr_left
            intro o ho
            cases o with
            | none => rfl
            | some b =>
              by_cases hba : b = a
              · subst hba; simp [NameState.write, ha]
              · simp [NameState.write, hba]
          · simp [NameState.write]
  | makeMut i b f =>
    have hsg := h.spec_get i
    have hd := h.dead hf
    simp only [NameCall.Fresh] at hf
    simp only [NameCall.apply, NameState.makeMut, NameCall.spec]
    cases hi : st.slots[i]? with
    | none => rw [hi] at hsg; rw [hsg]; exact h
    | some o =>
      cases o with
      | none => rw [hi] at hsg; rw [hsg]; exact h
      | some a =>
        have hmem := List.mem_of_getElem? hi
        obtain ⟨s, n, ha⟩ := h.live a hmem
        rw [hi] at hsg
        simp only [Option.map_some, Option.bind_some, ha] at hsg
        rw [hsg]
        simp only [ha]
        have hn := h.counts a s n ha
        have hab : a ≠ b := fun hab => by rw [hab, hf] at ha; cases ha
        match n, ha, hn with
        | 0, ha, hn => omega
        | 1, ha, hn =>
          simp only
          refine ⟨?_, ?_, ?_⟩
          · intro c s' n' hc
            simp only [NameState.write] at hc
            by_cases hca : c = a
            · subst hca
              simp only [if_true, Option.some.injEq, Prod.mk.injEq] at hc
              obtain ⟨-, rfl⟩ := hc
              exact hn
            · rw [if_neg hca] at hc
              exact h.counts c s' n' hc
          · intro c hc
            simp only [NameState.write]
            by_cases hca : c = a
            · exact ⟨f s, 1, if_pos hca⟩
            · rw [if_neg hca]; exact h.live c hc
          · rw [h.strs]
            apply List.ext_getElem?
            intro j
            rw [List.getElem?_set, List.getElem?_map, List.getElem?_map]
            have hlen : i < st.slots.length := by
              rw [List.getElem?_eq_some_iff] at hi; exact hi.1
            by_cases hij : i = j
            · subst hij
              simp only [if_true, List.length_map, hlen, hi]
              simp [NameState.write]
            · simp only [hij, if_false]
              cases hj : st.slots[j]? with
              | none => rfl
              | some o =>
                cases o with
                | none => rfl
                | some c =>
                  have hca : c ≠ a := by
                    rintro rfl
                    have hc := slot_count_set st.slots i (some c) none (some c) hi
                    simp only [if_true, ← hn.2, reduceCtorEq, if_false] at hc
                    have : (st.slots.set i none).count (some c) = 0 := by omega
                    rw [List.count_eq_zero] at this
                    exact this (List.mem_of_getElem? (i := j) (by
                      rw [List.getElem?_set]; simp [hij, hj]))
                  simp [NameState.write, hca]
        | n + 2, ha, hn =>
          simp only
          have hrel : NameState.release st.heap a = NameState.write st.heap a (some (s, n + 1)) := by
            simp [NameState.release, ha]
          rw [hrel]
          refine ⟨?_, ?_, ?_⟩
          · intro c s' n' hc
            show 0 < n' ∧ n' = (st.slots.set i (some b)).count (some c)
            have hcs := slot_count_set st.slots i (some a) (some b) (some c) hi
            simp only [NameState.write] at hc
            by_cases hcb : c = b
            · subst hcb
              simp only [if_true, Option.some.injEq, Prod.mk.injEq] at hc
              obtain ⟨-, rfl⟩ := hc
              have := List.count_eq_zero.2 hd
              simp only [Option.some.injEq, hab, if_false, if_true] at hcs
              omega
            · rw [if_neg hcb] at hc
              simp only [Option.some.injEq, Ne.symm hcb, if_false] at hcs
              by_cases hca : c = a
              · subst hca
                simp only [if_true, Option.some.injEq, Prod.mk.injEq] at hc
                obtain ⟨-, rfl⟩ := hc
                simp only [if_true] at hcs
                omega
              · rw [if_neg hca] at hc
                have := h.counts c s' n' hc
                simp only [Ne.symm hca, if_false] at hcs
                omega
          · intro c hc
            simp only [NameState.write]
            by_cases hcb : c = b
            · exact ⟨f s, 1, if_pos hcb⟩
            · rw [if_neg hcb]
              by_cases hca : c = a
              · exact ⟨s, n + 1, if_pos hca⟩
              · rw [if_neg hca]
                apply h.live
                rcases List.mem_or_eq_of_mem_set hc with hc | hc
                · exact hc
                · cases hc; exact absurd rfl hcb
          · rw [h.strs]
            apply List.ext_getElem?
            intro j
            rw [List.getElem?_set, List.getElem?_map, List.getElem?_map, List.getElem?_set]
            have hlen : i < st.slots.length := by
              rw [List.getElem?_eq_some_iff] at hi; exact hi.1
            by_cases hij : i = j
            · subst hij
              simp [hlen, NameState.write]
            · simp only [hij, if_false]
              cases hj : st.slots[j]? with
              | none => rfl
              | some o =>
                cases o with
                | none => rfl
                | some c =>
                  have hcb : c ≠ b := fun hcb => hd (hcb ▸ List.mem_of_getElem? hj)
                  by_cases hca : c = a
                  · subst hca; simp [NameState.write, hcb, ha]
                  · simp [NameState.write, hcb, hca]
  | drop i =>
    have hsg := h.spec_get i
    simp only [NameCall.apply, NameState.drop, NameCall.spec]
    cases hi : st.slots[i]? with
    | none => rw [hi] at hsg; rw [hsg]; exact h
    | some o =>
      cases o with
      | none => rw [hi] at hsg; rw [hsg]; exact h
      | some a =>
        have hmem := List.mem_of_getElem? hi
        obtain ⟨s, n, ha⟩ := h.live a hmem
        rw [hi] at hsg
        simp only [Option.map_some, Option.bind_some, ha] at hsg
        rw [hsg]
        have hn := h.counts a s n ha
        have hrel : NameState.release st.heap a =
            NameState.write st.heap a (if n = 1 then none else some (s, n - 1)) := by
          match n, ha, hn with
          | 0, _, hn => omega
          | 1, ha, _ => simp [NameState.release, ha]
          | n + 2, ha, _ => simp [NameState.release, ha]
        simp only
        rw [hrel]
        have hzero : n = 1 → some a ∉ st.slots.set i none := by
          intro h1 hm
          have := slot_count_set st.slots i (some a) none (some a) hi
          simp only [if_true, reduceCtorEq, if_false] at this
          have h0 : (st.slots.set i none).count (some a) = 0 := by omega
          exact List.count_eq_zero.1 h0 hm
        refine ⟨?_, ?_, ?_⟩
        · intro c s' n' hc
          show 0 < n' ∧ n' = (st.slots.set i none).count (some c)
          have hcs := slot_count_set st.slots i (some a) none (some c) hi
          simp only [NameState.write] at hc
          simp only [reduceCtorEq, if_false, Option.some.injEq] at hcs
          by_cases hca : c = a
          · subst hca
            simp only [if_true] at hc hcs
            split at hc
            · cases hc
            · simp only [Option.some.injEq, Prod.mk.injEq] at hc
              omega
          · rw [if_neg hca] at hc
            have := h.counts c s' n' hc
            simp only [Ne.symm hca, if_false] at hcs
            omega
        · intro c hc
          simp only [NameState.write]
          by_cases hca : c = a
          · subst hca
            have h1 : n ≠ 1 := fun h1 => hzero h1 hc
            exact ⟨s, n - 1, by simp [h1]⟩
          · rw [if_neg hca]
            apply h.live
            rcases List.mem_or_eq_of_mem_set hc with hc | hc
            · exact hc
            · cases hc
        · rw [h.strs]
          apply List.ext_getElem?
          intro j
          rw [List.getElem?_set, List.getElem?_map, List.getElem?_map, List.getElem?_set]
          have hlen : i < st.slots.length := by
            rw [List.getElem?_eq_some_iff] at hi; exact hi.1
          by_cases hij : i = j
          · subst hij
            simp [hlen]
          · simp only [hij, if_false]
            cases hj : st.slots[j]? with
            | none => rfl
            | some o =>
              cases o with
              | none => rfl
              | some c =>
                by_cases hca : c = a
                · subst hca
                  have h1 : n ≠ 1 := fun h1 => hzero h1 (List.mem_of_getElem? (i := j) (by
                    rw [List.getElem?_set]; simp [hij, hj]))
                  simp [NameState.write, h1, ha]
                · simp [NameState.write, hca]

theorem name_inv {ops st} (h : NameRun ops st) : st.Inv (nameSpec ops) := by
  induction h with
  | init => exact ⟨(by intro a s n h; cases h), (by intro a h; cases h), rfl⟩
  | step _ hf ih => rw [nameSpec, List.foldl_append]; exact ih.step hf

/-- C14.  After any history of `new`, `clone`, `make_mut` and `drop`, with any allocator, every name
reads as in the specification where names are independent strings: a mutation of one name is seen
by no other. -/
theorem name_str (ops : List NameCall) (st : NameState) (h : NameRun ops st) (i : Nat) :
    st.str i = ((nameSpec ops)[i]?).join := by
  rw [(name_inv h).spec_get]
  unfold NameState.str
  cases st.slots[i]? with
  | none => rfl
  | some o => cases o <;> rfl

/-- C14.  In particular, `make_mut` on one name leaves every other name as it was, and gives this
name the mutated string. -/
theorem name_make_mut (ops : List NameCall) (st : NameState) (h : NameRun ops st) (i b : Nat)
    (hb : st.heap b = none) (f : String → String) :
    (∀ j, j ≠ i → (st.makeMut i b f).str j = st.str j) ∧
      (st.makeMut i b f).str i = (st.str i).map f := by
  have h' : NameRun (ops ++ [.makeMut i b f]) (st.makeMut i b f) := .step h hb
  have hspec : nameSpec (ops ++ [.makeMut i b f]) =
      (NameCall.makeMut i b f).spec (nameSpec ops) := by
    rw [nameSpec, List.foldl_append]; rfl
  constructor
  · intro j hj
    rw [name_str _ _ h', name_str _ _ h, hspec]
    simp only [NameCall.spec]
    split
    · rw [List.getElem?_set]; simp [Ne.symm hj]
    · rfl
  · rw [name_str _ _ h', name_str _ _ h, hspec]
    simp only [NameCall.spec]
    cases hi : (nameSpec ops)[i]? with
    | none => simp [hi]
    | some o =>
      cases o with
      | none => simp [hi]
      | some s =>
        have hlen : i < (nameSpec ops).length := by
          rw [List.getElem?_eq_some_iff] at hi; exact hi.1
        simp [List.getElem?_set, hlen]

/-- C14.  No leak and no double free: an allocation is live exactly while some name holds it. -/
theorem name_heap_exact (ops : List NameCall) (st : NameState) (h : NameRun ops st) (a : Nat) :
    (st.heap a).isSome ↔ some a ∈ st.slots := by
  have hi := name_inv h
  constructor
  · intro ha
    obtain ⟨⟨s, n⟩, hs⟩ := Option.isSome_iff_exists.1 ha
    have := hi.counts a s n hs
    exact List.count_pos_iff.1 (by omega)
  · intro ha
    obtain ⟨s, n, hs⟩ := hi.live a ha
    simp [hs]

/-- A history in which a clone is mutated, then the original is mutated in place. -/
example : ∃ st, NameRun [.new 7 "x", .clone 0, .makeMut 1 8 (· ++ "y"), .makeMut 0 9 (· ++ "z"),
    .drop 1] st ∧ st.str 0 = some "xz" ∧ st.str 1 = none ∧ (st.heap 8).isSome = false :=
  ⟨_, .step (ops := [_, _, _, _]) (.step (ops := [_, _, _]) (.step (ops := [_, _])
    (.step (ops := [_]) (.step (ops := []) .init rfl) trivial) rfl) rfl) trivial, rfl, rfl, rfl⟩
end Bongo
