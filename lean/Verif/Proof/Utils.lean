import Verif.Model.Utils
import Verif.Proof.BTree
import Mathlib.Logic.Relation
import Mathlib.Data.List.Perm.Subperm
/-! Lemmas about loops and breadth-first search. -/
set_option linter.unusedSectionVars false
namespace Bongo
open Std

section bfs
variable {T : Type u} {cmp : T → T → Ordering} [TransCmp cmp] [LawfulEqCmp cmp]

/-- One call of the step function leads from `a` to `b`. -/
def StepTo (f : T → Res (List T)) (a b : T) : Prop := ∃ l, f a = .ok l ∧ b ∈ l

theorem bfsVisit_mem (st : BSet T × BSet T) (a x : T) :
    x ∈ (bfsVisit cmp st a).2 ↔ x = a ∨ x ∈ st.2 := by
  unfold bfsVisit
  split
  · rename_i h; rw [BSet.contains_iff_mem] at h; grind
  · simp [BSet.mem_insert]

theorem bfsVisit_next (st : BSet T × BSet T) (a x : T) :
    x ∈ (bfsVisit cmp st a).1 ↔ (x = a ∧ a ∉ st.2) ∨ x ∈ st.1 := by
  unfold bfsVisit
  split
  · rename_i h; rw [BSet.contains_iff_mem] at h; grind
  · rename_i h; rw [BSet.contains_iff_mem] at h; simp [BSet.mem_insert, h]

structure BfsInv (st₀ st : BSet T × BSet T) : Prop where
  sorted : BSet.Sorted cmp st.2
  mono : ∀ x ∈ st₀.2, x ∈ st.2
  next : ∀ x, x ∈ st.1 → x ∈ st.2
  newNext : ∀ x ∈ st.2, x ∈ st₀.2 ∨ x ∈ st.1
  fresh : ∀ x ∈ st.1, x ∉ st₀.2

theorem bfsInv_visit {st₀ st : BSet T × BSet T} (h : BfsInv (cmp := cmp) st₀ st) (a : T) :
    BfsInv (cmp := cmp) st₀ (bfsVisit cmp st a) := by
  have hs : BSet.Sorted cmp (bfsVisit cmp st a).2 := by
    unfold bfsVisit; split
    · exact h.sorted
    · exact BSet.sorted_insert h.sorted _
  refine ⟨hs, ?_, ?_, ?_, ?_⟩
  · intro x hx; rw [bfsVisit_mem]; exact Or.inr (h.mono x hx)
  · intro x hx; rw [bfsVisit_mem]; rw [bfsVisit_next] at hx
    rcases hx with ⟨hx, -⟩ | hx
    · exact Or.inl hx
    · exact Or.inr (h.next x hx)
  · intro x hx; rw [bfsVisit_mem] at hx; rw [bfsVisit_next]
    rcases hx with rfl | hx
    · by_cases hxs : x ∈ st.2
      · rcases h.newNext x hxs with h1 | h1
        · exact Or.inl h1
        · exact Or.inr (Or.inr h1)
      · exact Or.inr (Or.inl ⟨rfl, hxs⟩)
    · rcases h.newNext x hx with h1 | h1
      · exact Or.inl h1
      · exact Or.inr (Or.inr h1)
  · intro x hx; rw [bfsVisit_next] at hx
    rcases hx with ⟨rfl, hx⟩ | hx
    · exact fun h1 => hx (h.mono x h1)
    · exact h.fresh x hx

theorem bfsVisits {st₀ : BSet T × BSet T} (l : List T) {st : BSet T × BSet T}
    (h : BfsInv (cmp := cmp) st₀ st) :
    BfsInv (cmp := cmp) st₀ (l.foldl (bfsVisit cmp) st) ∧
      ∀ x, x ∈ (l.foldl (bfsVisit cmp) st).2 ↔ x ∈ l ∨ x ∈ st.2 := by
  induction l generalizing st with
  | nil => exact ⟨h, by simp⟩
  | cons a l ih =>
    obtain ⟨h1, h2⟩ := ih (bfsInv_visit h a)
    refine ⟨h1, fun x => ?_⟩
    rw [List.foldl_cons, h2, bfsVisit_mem, List.mem_cons]
    grind

theorem bfsLevel_ok {f : T → Res (List T)} {curr : List T} {st₀ st st' : BSet T × BSet T}
    (h : BfsInv (cmp := cmp) st₀ st) (he : bfsLevel cmp f curr st = .ok st') :
    BfsInv (cmp := cmp) st₀ st' ∧ (∀ c ∈ curr, ∃ l, f c = .ok l) ∧
      ∀ x, x ∈ st'.2 ↔ (∃ c ∈ curr, StepTo f c x) ∨ x ∈ st.2 := by
  induction curr generalizing st with
  | nil => simp only [bfsLevel, Res.ok.injEq] at he; subst he; exact ⟨h, by simp, by simp⟩
  | cons c curr ih =>
    rw [bfsLevel] at he
    cases hf : f c with
    | ok l =>
      simp only [hf] at he
      obtain ⟨h1, h2⟩ := bfsVisits l h
      obtain ⟨g1, g2, g3⟩ := ih h1 he
      refine ⟨g1, ?_, ?_⟩
      · intro d hd
        rcases List.mem_cons.1 hd with rfl | hd
        · exact ⟨l, hf⟩
        · exact g2 d hd
      · intro x
        rw [g3, h2]
        constructor
        · rintro (⟨d, hd, hs⟩ | hx | hx)
          · exact Or.inl ⟨d, by simp [hd], hs⟩
          · exact Or.inl ⟨c, by simp, l, hf, hx⟩
          · exact Or.inr hx
        · rintro (⟨d, hd, hs⟩ | hx)
          · rcases List.mem_cons.1 hd with rfl | hd
            · obtain ⟨l', hl, hx⟩ := hs
              rw [hf] at hl; cases hl
              exact Or.inr (Or.inl hx)
            · exact Or.inl ⟨d, hd, hs⟩
          · exact Or.inr (Or.inr hx)
    | panic w => simp [hf] at he
    | oof => simp [hf] at he

theorem bfsLevel_panic {f : T → Res (List T)} {curr : List T} {st : BSet T × BSet T} {w}
    (he : bfsLevel cmp f curr st = .panic w) : ∃ c ∈ curr, f c = .panic w := by
  induction curr generalizing st with
  | nil => simp [bfsLevel] at he
  | cons c curr ih =>
    rw [bfsLevel] at he
    cases hf : f c with
    | ok l =>
      simp only [hf] at he
      obtain ⟨d, hd, h⟩ := ih he
      exact ⟨d, by simp [hd], h⟩
    | panic w' => simp only [hf, Res.panic.injEq] at he; exact ⟨c, by simp, by rw [hf, he]⟩
    | oof => simp [hf] at he

theorem bfsLevel_oof {f : T → Res (List T)} {curr : List T} {st : BSet T × BSet T}
    (he : bfsLevel cmp f curr st = .oof) : ∃ c ∈ curr, f c = .oof := by
  induction curr generalizing st with
  | nil => simp [bfsLevel] at he
  | cons c curr ih =>
    rw [bfsLevel] at he
    cases hf : f c with
    | ok l =>
      simp only [hf] at he
      obtain ⟨d, hd, h⟩ := ih he
      exact ⟨d, by simp [hd], h⟩
    | panic w' => simp [hf] at he
    | oof => exact ⟨c, by simp, hf⟩

/-- The invariant of the search: `reach x` says `x` is one or more steps from the start. -/
structure BfsLoopInv (f : T → Res (List T)) (init : List T) (curr seen : BSet T) : Prop where
  sorted : BSet.Sorted cmp seen
  sound : ∀ x ∈ seen, ∃ i ∈ init, Relation.TransGen (StepTo f) i x
  cur : ∀ x ∈ curr, x ∈ init ∨ x ∈ seen
  done : ∀ x, x ∈ init ∨ x ∈ seen → x ∈ curr ∨ ∃ l, f x = .ok l ∧ ∀ y ∈ l, y ∈ seen

theorem bfsInv_start {seen : BSet T} (h : BSet.Sorted cmp seen) :
    BfsInv (cmp := cmp) ([], seen) ([], seen) := by
  refine ⟨h, fun x hx => hx, by simp, fun x hx => Or.inl hx, by simp⟩

theorem bfsLoop_step {f : T → Res (List T)} {init : List T} {c : T} {cs seen : List T}
    {next seen' : BSet T}
    (h : BfsLoopInv (cmp := cmp) f init (c :: cs) seen)
    (he : bfsLevel cmp f (c :: cs) ([], seen) = .ok (next, seen')) :
    BfsLoopInv (cmp := cmp) f init next seen' ∧ (∀ x ∈ seen, x ∈ seen') ∧
      (∀ x ∈ next, x ∉ seen) ∧ (∀ x ∈ next, x ∈ seen') := by
  obtain ⟨h1, h2, h3⟩ := bfsLevel_ok (bfsInv_start h.sorted) he
  refine ⟨⟨h1.sorted, ?_, ?_, ?_⟩, h1.mono, h1.fresh, h1.next⟩
  · intro x hx
    rcases (h3 x).1 hx with ⟨d, hd, hs⟩ | hx
    · rcases h.cur d hd with hi | hi
      · exact ⟨d, hi, .single hs⟩
      · obtain ⟨i, hi, ht⟩ := h.sound d hi
        exact ⟨i, hi, ht.tail hs⟩
    · exact h.sound x hx
  · intro x hx; exact Or.inr (h1.next x hx)
  · intro x hx
    have key : x ∈ init ∨ x ∈ seen → x ∈ next ∨ ∃ l, f x = .ok l ∧ ∀ y ∈ l, y ∈ seen' := by
      intro hx
      rcases h.done x hx with hc | ⟨l, hl, hy⟩
      · obtain ⟨l, hl⟩ := h2 x hc
        exact Or.inr ⟨l, hl, fun y hy => (h3 y).2 (Or.inl ⟨x, hc, l, hl, hy⟩)⟩
      · exact Or.inr ⟨l, hl, fun y h' => h1.mono y (hy y h')⟩
    rcases hx with hx | hx
    · exact key (Or.inl hx)
    · rcases h1.newNext x hx with h4 | h4
      · exact key (Or.inr h4)
      · exact Or.inl h4

theorem bfsLoop_ok {f : T → Res (List T)} {init : List T} {fuel : Nat} {curr seen s : BSet T}
    (h : BfsLoopInv (cmp := cmp) f init curr seen)
    (he : bfsLoop cmp fuel f curr seen = .ok s) :
    BfsLoopInv (cmp := cmp) f init [] s := by
  induction fuel generalizing curr seen with
  | zero =>
    cases curr with
    | nil => simp only [bfsLoop, Res.ok.injEq] at he; subst he; exact h
    | cons c cs => simp [bfsLoop] at he
  | succ n ih =>
    cases curr with
    | nil => simp only [bfsLoop, Res.ok.injEq] at he; subst he; exact h
    | cons c cs =>
      rw [bfsLoop] at he
      cases hl : bfsLevel cmp f (c :: cs) ([], seen) with
      | ok st =>
        obtain ⟨next, seen'⟩ := st
        simp only [hl] at he
        exact ih (bfsLoop_step h hl).1 he
      | panic w => simp [hl] at he
      | oof => simp [hl] at he

theorem bfsLoop_panic {f : T → Res (List T)} {init : List T} {fuel : Nat} {curr seen : BSet T} {w}
    (h : BfsLoopInv (cmp := cmp) f init curr seen)
    (he : bfsLoop cmp fuel f curr seen = .panic w) :
    ∃ x, (x ∈ init ∨ ∃ i ∈ init, Relation.TransGen (StepTo f) i x) ∧ f x = .panic w := by
  induction fuel generalizing curr seen with
  | zero => cases curr <;> simp [bfsLoop] at he
  | succ n ih =>
    cases curr with
    | nil => simp [bfsLoop] at he
    | cons c cs =>
      rw [bfsLoop] at he
      cases hl : bfsLevel cmp f (c :: cs) ([], seen) with
      | ok st =>
        obtain ⟨next, seen'⟩ := st
        simp only [hl] at he
        exact ih (bfsLoop_step h hl).1 he
      | panic w' =>
        simp only [hl, Res.panic.injEq] at he; subst he
        obtain ⟨d, hd, hf⟩ := bfsLevel_panic hl
        refine ⟨d, ?_, hf⟩
        rcases h.cur d hd with h1 | h1
        · exact Or.inl h1
        · exact Or.inr (h.sound d h1)
      | oof => simp [hl] at he

theorem nodup_subset_length {l U : List T} (h : l.Nodup) (hs : ∀ x ∈ l, x ∈ U) :
    l.length ≤ U.length := by
  classical
  exact (List.subperm_of_subset h hs).length_le

theorem bfsLoop_terminates {f : T → Res (List T)} {init U : List T}
    (hU : ∀ i ∈ init, ∀ x, Relation.TransGen (StepTo f) i x → x ∈ U)
    (hf : ∀ x, f x ≠ .oof) {fuel : Nat} {curr seen : BSet T}
    (h : BfsLoopInv (cmp := cmp) f init curr seen)
    (hsub : curr = [] ∨ U.length - seen.length < fuel) :
    bfsLoop cmp fuel f curr seen ≠ .oof := by
  induction fuel generalizing curr seen with
  | zero =>
    cases curr with
    | nil => simp [bfsLoop]
    | cons c cs => simp at hsub
  | succ n ih =>
    cases curr with
    | nil => simp [bfsLoop]
    | cons c cs =>
      rw [bfsLoop]
      cases hl : bfsLevel cmp f (c :: cs) ([], seen) with
      | oof => obtain ⟨d, -, hd⟩ := bfsLevel_oof hl; exact absurd hd (hf d)
      | panic w => simp
      | ok st =>
        obtain ⟨next, seen'⟩ := st
        simp only
        obtain ⟨h1, h2, h3, h4⟩ := bfsLoop_step h hl
        apply ih h1
        cases next with
        | nil => exact Or.inl rfl
        | cons x next =>
          right
          have hnd := BSet.sorted_nodup h.sorted
          have hx := h3 x (by simp)
          have hlen : (x :: seen).length ≤ seen'.length := by
            apply nodup_subset_length
            · exact List.nodup_cons.2 ⟨hx, hnd⟩
            · intro y hy
              rcases List.mem_cons.1 hy with rfl | hy
              · exact h4 y (by simp)
              · exact h2 y hy
          have hle : seen'.length ≤ U.length := by
            apply nodup_subset_length (BSet.sorted_nodup h1.sorted)
            intro y hy
            obtain ⟨i, hi, ht⟩ := h1.sound y hy
            exact hU i hi y ht
          simp at hsub hlen
          omega

theorem bfsLoopInv_init (f : T → Res (List T)) (init : List T) :
    BfsLoopInv (cmp := cmp) f init (BSet.ofList cmp init) [] := by
  refine ⟨List.Pairwise.nil, by simp, ?_, ?_⟩
  · intro x hx; rw [BSet.mem_ofList] at hx; exact Or.inl hx
  · intro x hx
    rcases hx with hx | hx
    · exact Or.inl (BSet.mem_ofList.2 hx)
    · simp at hx

theorem bfs_mem {f : T → Res (List T)} {init : List T} {fuel : Nat} {s : BSet T}
    (h : breadthFirstSearch cmp fuel init f = .ok s) (x : T) :
    x ∈ s ↔ ∃ i ∈ init, Relation.TransGen (StepTo f) i x := by
  have hi := bfsLoop_ok (bfsLoopInv_init f init) h
  refine ⟨hi.sound x, ?_⟩
  rintro ⟨i, hi', ht⟩
  have cl : ∀ a, (a ∈ init ∨ a ∈ s) → ∀ b, StepTo f a b → b ∈ s := by
    rintro a ha b ⟨l, hl, hb⟩
    rcases hi.done a ha with h1 | ⟨l', hl', hy⟩
    · simp at h1
    · rw [hl] at hl'; cases hl'; exact hy b hb
  induction ht with
  | single hs => exact cl i (Or.inl hi') _ hs
  | tail _ hs ih => exact cl _ (Or.inr ih) _ hs

theorem bfs_sorted {f : T → Res (List T)} {init : List T} {fuel : Nat} {s : BSet T}
    (h : breadthFirstSearch cmp fuel init f = .ok s) : BSet.Sorted cmp s :=
  (bfsLoop_ok (bfsLoopInv_init f init) h).sorted

theorem bfs_calls_ok {f : T → Res (List T)} {init : List T} {fuel : Nat} {s : BSet T}
    (h : breadthFirstSearch cmp fuel init f = .ok s) {x : T} (hx : x ∈ init ∨ x ∈ s) :
    ∃ l, f x = .ok l := by
  have hi := bfsLoop_ok (bfsLoopInv_init f init) h
  rcases hi.done x hx with h1 | ⟨l, hl, -⟩
  · simp at h1
  · exact ⟨l, hl⟩

theorem bfs_panic {f : T → Res (List T)} {init : List T} {fuel : Nat} {w}
    (h : breadthFirstSearch cmp fuel init f = .panic w) :
    ∃ x, (x ∈ init ∨ ∃ i ∈ init, Relation.TransGen (StepTo f) i x) ∧ f x = .panic w :=
  bfsLoop_panic (bfsLoopInv_init f init) h

theorem bfs_terminates {f : T → Res (List T)} {init U : List T}
    (hU : ∀ i ∈ init, ∀ x, Relation.TransGen (StepTo f) i x → x ∈ U)
    (hf : ∀ x, f x ≠ .oof) {fuel : Nat} (hfuel : U.length < fuel) :
    breadthFirstSearch cmp fuel init f ≠ .oof :=
  bfsLoop_terminates hU hf (bfsLoopInv_init f init) (Or.inr (by simpa using hfuel))

/-- More fuel does not change an answer. -/
theorem bfsLoop_mono {f : T → Res (List T)} {n m : Nat} (hnm : n ≤ m) {curr seen : BSet T}
    (h : bfsLoop cmp n f curr seen ≠ .oof) :
    bfsLoop cmp m f curr seen = bfsLoop cmp n f curr seen := by
  induction n generalizing m curr seen with
  | zero =>
    cases curr with
    | nil => cases m <;> simp [bfsLoop]
    | cons c cs => simp [bfsLoop] at h
  | succ n ih =>
    obtain ⟨m, rfl⟩ : ∃ k, m = k + 1 := ⟨m - 1, by omega⟩
    cases curr with
    | nil => simp [bfsLoop]
    | cons c cs =>
      rw [bfsLoop, bfsLoop]
      rw [bfsLoop] at h
      cases hl : bfsLevel cmp f (c :: cs) ([], seen) with
      | ok st => simp only [hl] at h ⊢; exact ih (by omega) h
      | panic w => rfl
      | oof => rfl
end bfs

section loops
variable {S : Type u} {ι : Type v}

theorem changeIter_fst (l : List ι) (f : S → ι → S × WasChanged) (s : S) :
    (changeIter l f s).1 = l.foldl (fun s i => (f s i).1) s := by
  unfold changeIter
  suffices ∀ (c : WasChanged),
      (l.foldl (fun acc i => let r := f acc.1 i; (r.1, acc.2.join r.2)) (s, c)).1 =
        l.foldl (fun s i => (f s i).1) s from this _
  induction l generalizing s with
  | nil => intro c; rfl
  | cons i l ih => intro c; simp only [List.foldl_cons]; exact ih _ _

theorem WasChanged.join_eq_changed {a b : WasChanged} :
    a.join b = .changed ↔ a = .changed ∨ b = .changed := by
  cases a <;> cases b <;> simp [WasChanged.join]

theorem WasChanged.join_eq_unchanged {a b : WasChanged} :
    a.join b = .unchanged ↔ a = .unchanged ∧ b = .unchanged := by
  cases a <;> cases b <;> simp [WasChanged.join]

@[simp] theorem WasChanged.fromChanged_eq_changed {b : Bool} :
    WasChanged.fromChanged b = .changed ↔ b = true := by
  cases b <;> simp [WasChanged.fromChanged]

@[simp] theorem WasChanged.fromChanged_eq_unchanged {b : Bool} :
    WasChanged.fromChanged b = .unchanged ↔ b = false := by
  cases b <;> simp [WasChanged.fromChanged]

theorem WasChanged.ne_changed {c : WasChanged} : c ≠ .changed ↔ c = .unchanged := by
  cases c <;> simp

theorem WasChanged.join_assoc (a b c : WasChanged) : (a.join b).join c = a.join (b.join c) := by
  cases a <;> cases b <;> cases c <;> rfl

@[simp] theorem WasChanged.unchanged_join (a : WasChanged) : WasChanged.unchanged.join a = a := by
  cases a <;> rfl

theorem changeIter_aux (l : List ι) (f : S → ι → S × WasChanged) (s : S) (c : WasChanged) :
    (l.foldl (fun acc i => let r := f acc.1 i; (r.1, acc.2.join r.2)) (s, c)).2 =
      c.join (l.foldl (fun acc i => let r := f acc.1 i; (r.1, acc.2.join r.2)) (s, .unchanged)).2 := by
  induction l generalizing s c with
  | nil => cases c <;> rfl
  | cons i l ih =>
    simp only [List.foldl_cons]
    rw [ih, ih _ (WasChanged.join .unchanged _), WasChanged.join_assoc]
    simp

theorem changeIter_cons (i : ι) (l : List ι) (f : S → ι → S × WasChanged) (s : S) :
    changeIter (i :: l) f s =
      ((changeIter l f (f s i).1).1, (f s i).2.join (changeIter l f (f s i).1).2) := by
  apply Prod.ext
  · simp [changeIter_fst]
  · unfold changeIter
    rw [List.foldl_cons, changeIter_aux]
    simp

@[simp] theorem changeIter_nil (f : S → ι → S × WasChanged) (s : S) :
    changeIter [] f s = (s, .unchanged) := rfl

/-- If every visit only reports `unchanged` when it leaves the state alone, so does the pass. -/
theorem changeIter_unchanged {f : S → ι → S × WasChanged} {l : List ι} {s : S}
    (hf : ∀ s, ∀ i ∈ l, (f s i).2 = .unchanged → (f s i).1 = s)
    (h : (changeIter l f s).2 = .unchanged) :
    (changeIter l f s).1 = s ∧ ∀ i ∈ l, (f s i).2 = .unchanged := by
  induction l generalizing s with
  | nil => simp
  | cons i l ih =>
    rw [changeIter_cons] at h ⊢
    simp only [WasChanged.join_eq_unchanged] at h
    have h1 := hf s i (by simp) h.1
    have h2 := h.2
    rw [h1] at h2 ⊢
    obtain ⟨h3, h4⟩ := ih (fun s i hi => hf s i (by simp [hi])) h2
    refine ⟨h3, ?_⟩
    intro j hj
    rcases List.mem_cons.1 hj with rfl | hj
    · exact h.1
    · exact h4 j hj

theorem changeIter_inv {f : S → ι → S × WasChanged} {l : List ι} {P : S → Prop} {s : S}
    (hf : ∀ s, ∀ i ∈ l, P s → P (f s i).1) (h : P s) : P (changeIter l f s).1 := by
  induction l generalizing s with
  | nil => exact h
  | cons i l ih =>
    rw [changeIter_cons]
    exact ih (fun s i hi => hf s i (by simp [hi])) (hf s i (by simp) h)

theorem changeIter_changed {f : S → ι → S × WasChanged} {l : List ι} {s : S} {P : S → Prop}
    {R : S → S → Prop} (hrefl : ∀ s, P s → (R s s)) (htrans : ∀ a b c, R a b → R b c → R a c)
    (hP : ∀ s, ∀ i ∈ l, P s → P (f s i).1)
    (hf : ∀ s, ∀ i ∈ l, P s → R s (f s i).1) (h : P s) : R s (changeIter l f s).1 := by
  induction l generalizing s with
  | nil => exact hrefl s h
  | cons i l ih =>
    rw [changeIter_cons]
    exact htrans _ _ _ (hf s i (by simp) h) (ih (fun s i hi => hP s i (by simp [hi]))
      (fun s i hi => hf s i (by simp [hi])) (hP s i (by simp) h))

/-- A `change_loop` whose every `Changed` round decreases a measure terminates; the answer
satisfies every invariant and its last round reported `Unchanged`. -/
theorem changeLoop_spec {f : S → Res (S × WasChanged)} {P : S → Prop} (μ : S → Nat)
    (hstep : ∀ s, P s → ∃ s' c, f s = .ok (s', c) ∧ P s' ∧ (c = .changed → μ s' < μ s))
    {s : S} (hs : P s) {fuel : Nat} (hfuel : μ s < fuel) :
    ∃ s₁ s₂, changeLoop fuel f s = .ok s₂ ∧ P s₁ ∧ f s₁ = .ok (s₂, .unchanged) := by
  induction fuel generalizing s with
  | zero => omega
  | succ n ih =>
    obtain ⟨s', c, he, hP, hc⟩ := hstep s hs
    rw [changeLoop, he]
    cases c with
    | changed => exact ih hP (by have := hc rfl; omega)
    | unchanged => exact ⟨s, s', rfl, hs, he⟩

theorem changeLoop_mono {f : S → Res (S × WasChanged)} {n m : Nat} (hnm : n ≤ m) {s : S}
    (h : changeLoop n f s ≠ .oof) : changeLoop m f s = changeLoop n f s := by
  induction n generalizing m s with
  | zero => simp [changeLoop] at h
  | succ n ih =>
    obtain ⟨m, rfl⟩ : ∃ k, m = k + 1 := ⟨m - 1, by omega⟩
    rw [changeLoop, changeLoop]
    rw [changeLoop] at h
    split <;> simp_all
end loops
end Bongo

namespace Bongo
section facts
open scoped Classical
variable {S : Type u} {ι : Type v} {X : Type w}

/-- How many elements of `U` do not yet hold in `s`. -/
noncomputable def missing (U : List X) (F : S → X → Prop) (s : S) : Nat :=
  (U.filter (fun x => ¬ F s x)).length

theorem missing_le_length (U : List X) (F : S → X → Prop) (s : S) : missing U F s ≤ U.length :=
  List.length_filter_le _ _

theorem missing_lt {U : List X} {F : S → X → Prop} {s s' : S} (hmono : ∀ x, F s x → F s' x)
    (hnew : ∃ x ∈ U, ¬ F s x ∧ F s' x) : missing U F s' < missing U F s := by
  unfold missing
  induction U with
  | nil => simp at hnew
  | cons a U ih =>
    have hle : (U.filter (fun x => ¬ F s' x)).length ≤ (U.filter (fun x => ¬ F s x)).length := by
      rw [← List.countP_eq_length_filter, ← List.countP_eq_length_filter]
      apply List.countP_mono_left
      intro x _ hx
      simp at hx ⊢
      exact fun h => hx (hmono x h)
    obtain ⟨x, hx, h1, h2⟩ := hnew
    rcases List.mem_cons.1 hx with rfl | hx
    · simp only [List.filter_cons, h1, h2]
      simp at hle ⊢
      omega
    · have := ih ⟨x, hx, h1, h2⟩
      by_cases h3 : F s a
      · simpa [List.filter_cons, h3, hmono a h3] using this
      · by_cases h4 : F s' a
        · simp only [List.filter_cons, h3, h4]
          simp at this ⊢
          omega
        · simpa [List.filter_cons, h3, h4] using this

/-- What is needed of the visits of a monotone pass: an invariant, monotone facts, and truthful
reports with respect to a finite universe of facts. -/
structure FactPass (l : List ι) (f : S → ι → S × WasChanged) (P : S → Prop) (F : S → X → Prop)
    (U : List X) : Prop where
  inv : ∀ s, ∀ i ∈ l, P s → P (f s i).1
  mono : ∀ s, ∀ i ∈ l, P s → ∀ x, F s x → F (f s i).1 x
  changed : ∀ s, ∀ i ∈ l, P s → (f s i).2 = .changed → ∃ x ∈ U, ¬ F s x ∧ F (f s i).1 x
  unchanged : ∀ s, ∀ i ∈ l, P s → (f s i).2 = .unchanged → ∀ x, F (f s i).1 x → F s x

theorem FactPass.iter {l : List ι} {f : S → ι → S × WasChanged} {P : S → Prop} {F : S → X → Prop}
    {U : List X} (h : FactPass l f P F U) {s : S} (hs : P s) :
    P (changeIter l f s).1 ∧ (∀ x, F s x → F (changeIter l f s).1 x) ∧
      ((changeIter l f s).2 = .changed → ∃ x ∈ U, ¬ F s x ∧ F (changeIter l f s).1 x) ∧
      ((changeIter l f s).2 = .unchanged → (∀ x, F (changeIter l f s).1 x ↔ F s x) ∧
        ∀ i ∈ l, ∃ s', P s' ∧ (∀ x, F s' x ↔ F s x) ∧ (f s' i).2 = .unchanged) := by
  induction l generalizing s with
  | nil => simp [hs]
  | cons a l ih =>
    have h' : FactPass l f P F U :=
      ⟨fun s i hi => h.inv s i (by simp [hi]), fun s i hi => h.mono s i (by simp [hi]),
        fun s i hi => h.changed s i (by simp [hi]), fun s i hi => h.unchanged s i (by simp [hi])⟩
    obtain ⟨i1, i2, i3, i4⟩ := ih h' (h.inv s a (by simp) hs)
    have hm := h.mono s a (by simp) hs
    rw [changeIter_cons]
    refine ⟨i1, fun x hx => i2 x (hm x hx), ?_, ?_⟩
    · intro hc
      rcases WasChanged.join_eq_changed.1 hc with hc | hc
      · obtain ⟨x, hx, h1, h2⟩ := h.changed s a (by simp) hs hc
        exact ⟨x, hx, h1, i2 x h2⟩
      · obtain ⟨x, hx, h1, h2⟩ := i3 hc
        exact ⟨x, hx, fun h3 => h1 (hm x h3), h2⟩
    · intro hc
      obtain ⟨hc1, hc2⟩ := WasChanged.join_eq_unchanged.1 hc
      obtain ⟨j1, j2⟩ := i4 hc2
      have hu := h.unchanged s a (by simp) hs hc1
      have heq : ∀ x, F (f s a).1 x ↔ F s x := fun x => ⟨hu x, hm x⟩
      refine ⟨fun x => (j1 x).trans (heq x), ?_⟩
      intro i hi
      rcases List.mem_cons.1 hi with rfl | hi
      · exact ⟨s, hs, fun _ => Iff.rfl, hc1⟩
      · obtain ⟨s', k1, k2, k3⟩ := j2 i hi
        exact ⟨s', k1, fun x => (k2 x).trans (heq x), k3⟩

/-- A loop of monotone passes over a finite universe of facts terminates in a state where every
visit (in a state with the same facts) reports `Unchanged`. -/
theorem FactPass.loop {l : List ι} {f : S → ι → S × WasChanged} {P : S → Prop} {F : S → X → Prop}
    {U : List X} (h : FactPass l f P F U) {s : S} (hs : P s) {fuel : Nat} (hf : U.length < fuel) :
    ∃ s', changeLoop fuel (fun s => .ok (changeIter l f s)) s = .ok s' ∧ P s' ∧
      (∃ s₁, P s₁ ∧ changeIter l f s₁ = (s', .unchanged)) ∧
      ∀ i ∈ l, ∃ s'', P s'' ∧ (∀ x, F s'' x ↔ F s' x) ∧ (f s'' i).2 = .unchanged := by
  obtain ⟨s₁, s₂, h1, h2, h3⟩ := changeLoop_spec (f := fun s => .ok (changeIter l f s)) (P := P)
    (missing U F) (by
      intro s hs
      obtain ⟨i1, i2, i3, -⟩ := h.iter hs
      exact ⟨_, _, rfl, i1, fun hc => missing_lt i2 (i3 hc)⟩) hs
    (Nat.lt_of_le_of_lt (missing_le_length U F s) hf)
  simp only [Res.ok.injEq] at h3
  obtain ⟨i1, -, -, i4⟩ := h.iter h2
  rw [h3] at i1 i4
  obtain ⟨j1, j2⟩ := i4 rfl
  refine ⟨s₂, h1, i1, ⟨s₁, h2, h3⟩, ?_⟩
  intro i hi
  obtain ⟨s', k1, k2, k3⟩ := j2 i hi
  exact ⟨s', k1, fun x => (k2 x).trans (j1 x).symm, k3⟩
end facts
end Bongo
