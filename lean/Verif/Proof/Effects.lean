import Verif.Model.Effects
import Verif.Spec.Effects
import Verif.Proof.Utils
/-! Lemmas about the loops over user functions with effects. -/
set_option linter.unusedSectionVars false
namespace Bongo
open Std

theorem BSet.not_contains_iff {K : Type u} {cmp : K → K → Ordering} {s : BSet K} {k : K} :
    BSet.contains cmp s k = false ↔ ∀ y ∈ s, cmp k y ≠ .eq := by
  rw [Bool.eq_false_iff, ne_eq, BSet.contains_iff]; simp

section generic
variable {A : Type u} {σ : Type v} {cmp : A → A → Ordering} [TransCmp cmp]

theorem BSet.insert_perm {s : BSet A} {k : A} (h : BSet.contains cmp s k = false) :
    (BSet.insert cmp s k).Perm (s ++ [k]) := by
  induction s with
  | nil => simp [BSet.insert]
  | cons a s ih =>
    rw [BSet.not_contains_iff] at h
    have h' : BSet.contains cmp s k = false := by
      rw [BSet.not_contains_iff]; exact fun y hy => h y (by simp [hy])
    unfold BSet.insert
    split
    · rename_i hc
      exact (List.perm_append_comm (l₁ := [k]) (l₂ := a :: s))
    · rename_i hc; exact absurd hc (h a (by simp))
    · simpa using List.Perm.cons a (ih h')

/-- What visiting the items `l` adds. -/
theorem visits_add (l : List A) {next seen : BSet A} (hs : BSet.Sorted cmp seen)
    (hn : ∀ y ∈ next, y ∈ seen) :
    ∃ add, ((l.foldl (bfsVisit cmp) (next, seen)).1).Perm (next ++ add) ∧
      ((l.foldl (bfsVisit cmp) (next, seen)).2).Perm (seen ++ add) ∧
      (∀ x ∈ add, x ∈ l) ∧
      BSet.Sorted cmp (l.foldl (bfsVisit cmp) (next, seen)).2 ∧
      ∀ x ∈ l, ∃ y ∈ (l.foldl (bfsVisit cmp) (next, seen)).2, cmp x y = .eq := by
  induction l generalizing next seen with
  | nil => exact ⟨[], by simp, by simp, by simp, hs, by simp⟩
  | cons a l ih =>
    rw [List.foldl_cons]
    cases hc : BSet.contains cmp seen a with
    | true =>
      have hv : bfsVisit cmp (next, seen) a = (next, seen) := by simp [bfsVisit, hc]
      rw [hv]
      obtain ⟨add, h1, h2, h3, h4, h5⟩ := ih hs hn
      refine ⟨add, h1, h2, fun x hx => by simp [h3 x hx], h4, ?_⟩
      intro x hx
      rcases List.mem_cons.1 hx with rfl | hx
      · obtain ⟨y, hy, hxy⟩ := BSet.contains_iff.1 hc
        exact ⟨y, h2.mem_iff.2 (by simp [hy]), hxy⟩
      · exact h5 x hx
    | false =>
      have hv : bfsVisit cmp (next, seen) a = (BSet.insert cmp next a, BSet.insert cmp seen a) := by
        simp [bfsVisit, hc]
      rw [hv]
      have hcn : BSet.contains cmp next a = false := by
        rw [BSet.not_contains_iff] at hc ⊢
        exact fun y hy => hc y (hn y hy)
      have p1 := BSet.insert_perm hcn
      have p2 := BSet.insert_perm hc
      obtain ⟨add, h1, h2, h3, h4, h5⟩ := ih (BSet.sorted_insert hs a) (fun y hy => by
        rw [p2.mem_iff]
        rcases List.mem_append.1 (p1.mem_iff.1 hy) with h | h
        · simp [hn y h]
        · simp at h; simp [h])
      refine ⟨a :: add, ?_, ?_, ?_, h4, ?_⟩
      · refine h1.trans ?_
        simpa using p1.append_right add
      · refine h2.trans ?_
        simpa using p2.append_right add
      · intro x hx
        rcases List.mem_cons.1 hx with rfl | hx
        · simp
        · simp [h3 x hx]
      · intro x hx
        rcases List.mem_cons.1 hx with rfl | hx
        · exact ⟨x, h2.mem_iff.2 (by simp [p2.mem_iff]), ReflCmp.compare_self⟩
        · exact h5 x hx

/-- The state of a search between two calls: the calls `cs` have been made and answered with
`outs`; `curr` remain of this level, `next` are for the next one, `seen` is what has been seen. -/
structure EInv (cmp : A → A → Ordering) (f : σ → A → σ × Res (List A)) (start base own : List A) (s₀ : σ)
    (cs : List A) (outs : List (List A)) (s : σ) (curr next seen : List A) : Prop where
  session : Session f start s₀ cs outs s
  sorted : BSet.Sorted cmp seen
  nextSeen : ∀ y ∈ next, y ∈ seen
  perm : (cs ++ curr ++ next).Perm (base ++ seen)
  baseStart : ∀ x ∈ base, x ∈ start
  ownStart : ∀ x ∈ own, x ∈ start
  known : ∀ x ∈ seen, x ∈ own ∨ x ∈ outs.flatten
  covered : ∀ x ∈ outs.flatten, ∃ y ∈ seen, cmp x y = .eq

theorem EInv.currKnown {f : σ → A → σ × Res (List A)} {start base own : List A} {s₀ : σ}
    {cs : List A} {outs : List (List A)} {s : σ} {curr next seen : List A}
    (h : EInv cmp f start base own s₀ cs outs s curr next seen) :
    ∀ x ∈ curr, x ∈ start ∨ x ∈ outs.flatten := by
  intro x hx
  rcases List.mem_append.1 (h.perm.mem_iff.1 (by simp [hx] : x ∈ cs ++ curr ++ next)) with h' | h'
  · exact Or.inl (h.baseStart x h')
  · exact (h.known x h').imp_left (h.ownStart x)

theorem EInv.step {f : σ → A → σ × Res (List A)} {start base own : List A} {s₀ : σ}
    {cs : List A} {outs : List (List A)} {s : σ} {c : A} {curr next seen : List A}
    (h : EInv cmp f start base own s₀ cs outs s (c :: curr) next seen) {s' : σ} {out : List A}
    (hc : f s c = (s', .ok out)) :
    EInv cmp f start base own s₀ (cs ++ [c]) (outs ++ [out]) s' curr
      (out.foldl (bfsVisit cmp) (next, seen)).1 (out.foldl (bfsVisit cmp) (next, seen)).2 := by
  obtain ⟨add, h1, h2, h3, h4, h5⟩ := visits_add (cmp := cmp) out h.sorted h.nextSeen
  refine ⟨h.session.call (h.currKnown c (by simp)) hc, h4, ?_, ?_, h.baseStart, h.ownStart, ?_, ?_⟩
  · intro y hy
    rw [h2.mem_iff]
    rcases List.mem_append.1 (h1.mem_iff.1 hy) with h' | h'
    · simp [h.nextSeen y h']
    · simp [h']
  · have e1 : (cs ++ [c] ++ curr ++ (out.foldl (bfsVisit cmp) (next, seen)).1).Perm
        (cs ++ (c :: curr) ++ next ++ add) := by
      simpa using (h1.append_left (cs ++ [c] ++ curr))
    have e2 : (cs ++ (c :: curr) ++ next ++ add).Perm (base ++ seen ++ add) :=
      h.perm.append_right add
    refine e1.trans (e2.trans ?_)
    rw [List.append_assoc]
    exact (h2.symm).append_left base
  · intro x hx
    simp only [List.flatten_append, List.flatten_cons, List.flatten_nil, List.append_nil,
      List.mem_append]
    rw [h2.mem_iff, List.mem_append] at hx
    rcases hx with hx | hx
    · exact (h.known x hx).imp_right Or.inl
    · exact Or.inr (Or.inr (h3 x hx))
  · intro x hx
    simp only [List.flatten_append, List.flatten_cons, List.flatten_nil, List.append_nil,
      List.mem_append] at hx
    rcases hx with hx | hx
    · obtain ⟨y, hy, hxy⟩ := h.covered x hx
      exact ⟨y, h2.mem_iff.2 (by simp [hy]), hxy⟩
    · exact h5 x hx

/-- A level that returns. -/
theorem levelE_ok {f : σ → A → σ × Res (List A)} {start base own : List A} {s₀ : σ}
    {cs : List A} {outs : List (List A)} {s : σ} {curr next seen : List A}
    (h : EInv cmp f start base own s₀ cs outs s curr next seen) {s' : σ} {st : BSet A × BSet A}
    (he : bfsLevelE cmp f curr s (next, seen) = (s', .ok st)) :
    ∃ outs', EInv cmp f start base own s₀ (cs ++ curr) (outs ++ outs') s' [] st.1 st.2 := by
  induction curr generalizing cs outs s next seen with
  | nil =>
    simp only [bfsLevelE, _root_.Prod.mk.injEq, Res.ok.injEq] at he
    obtain ⟨rfl, rfl⟩ := he
    exact ⟨[], by simpa using h⟩
  | cons c curr ih =>
    rw [bfsLevelE] at he
    rcases hf : f s c with ⟨s1, r⟩
    cases r with
    | ok out =>
      simp only [hf] at he
      obtain ⟨outs', h'⟩ := ih (h.step hf) he
      exact ⟨out :: outs', by simpa using h'⟩
    | panic w => simp [hf] at he
    | oof => simp [hf] at he

/-- A level that panics does so in a call. -/
theorem levelE_panic {f : σ → A → σ × Res (List A)} {start base own : List A} {s₀ : σ}
    {cs : List A} {outs : List (List A)} {s : σ} {curr next seen : List A}
    (h : EInv cmp f start base own s₀ cs outs s curr next seen) {s' : σ} {w : Panic}
    (he : bfsLevelE cmp f curr s (next, seen) = (s', .panic w)) :
    ∃ pre x post outs' s1 nx sn, curr = pre ++ x :: post ∧
      EInv cmp f start base own s₀ (cs ++ pre) (outs ++ outs') s1 (x :: post) nx sn ∧
      f s1 x = (s', .panic w) := by
  induction curr generalizing cs outs s next seen with
  | nil => simp [bfsLevelE] at he
  | cons c curr ih =>
    rw [bfsLevelE] at he
    rcases hf : f s c with ⟨s1, r⟩
    cases r with
    | ok out =>
      simp only [hf] at he
      obtain ⟨pre, x, post, outs', s2, nx, sn, e, h', hx⟩ := ih (h.step hf) he
      exact ⟨c :: pre, x, post, out :: outs', s2, nx, sn, by simp [e], by simpa using h', hx⟩
    | panic w' =>
      simp only [hf, _root_.Prod.mk.injEq, Res.panic.injEq] at he
      obtain ⟨rfl, rfl⟩ := he
      exact ⟨[], c, curr, [], s, next, seen, rfl, by simpa using h, hf⟩
    | oof => simp [hf] at he

/-- A level that does not return is stuck in a call. -/
theorem levelE_oof {f : σ → A → σ × Res (List A)} {start base own : List A} {s₀ : σ}
    {cs : List A} {outs : List (List A)} {s : σ} {curr next seen : List A}
    (h : EInv cmp f start base own s₀ cs outs s curr next seen) {s' : σ}
    (he : bfsLevelE cmp f curr s (next, seen) = (s', .oof)) :
    ∃ cs' outs' s1 x, Session f start s₀ cs' outs' s1 ∧ (x ∈ start ∨ x ∈ outs'.flatten) ∧
      f s1 x = (s', .oof) := by
  induction curr generalizing cs outs s next seen with
  | nil => simp [bfsLevelE] at he
  | cons c curr ih =>
    rw [bfsLevelE] at he
    rcases hf : f s c with ⟨s1, r⟩
    cases r with
    | ok out => simp only [hf] at he; exact ih (h.step hf) he
    | panic w' => simp [hf] at he
    | oof =>
      simp only [hf, _root_.Prod.mk.injEq, and_true] at he
      subst he
      exact ⟨cs, outs, s, c, h.session, h.currKnown c (by simp), hf⟩

/-- Between levels. -/
theorem EInv.turn {f : σ → A → σ × Res (List A)} {start base own : List A} {s₀ : σ}
    {cs : List A} {outs : List (List A)} {s : σ} {next seen : List A}
    (h : EInv cmp f start base own s₀ cs outs s [] next seen) :
    EInv cmp f start base own s₀ cs outs s next [] seen :=
  ⟨h.session, h.sorted, by simp, by simpa using h.perm, h.baseStart, h.ownStart,
    h.known, h.covered⟩

theorem loopE_ok {f : σ → A → σ × Res (List A)} {start base own : List A} {s₀ : σ} {fuel : Nat}
    {cs : List A} {outs : List (List A)} {s : σ} {curr seen r : List A}
    (h : EInv cmp f start base own s₀ cs outs s curr [] seen) {s' : σ}
    (he : bfsLoopE cmp fuel f s curr seen = (s', .ok r)) :
    ∃ more outs', curr <+: more ∧
      EInv cmp f start base own s₀ (cs ++ more) (outs ++ outs') s' [] [] r := by
  induction fuel generalizing cs outs s curr seen with
  | zero =>
    cases curr with
    | nil =>
      simp only [bfsLoopE, _root_.Prod.mk.injEq, Res.ok.injEq] at he
      obtain ⟨rfl, rfl⟩ := he
      exact ⟨[], [], List.prefix_rfl, by simpa using h⟩
    | cons c curr => simp [bfsLoopE] at he
  | succ fuel ih =>
    cases curr with
    | nil =>
      simp only [bfsLoopE, _root_.Prod.mk.injEq, Res.ok.injEq] at he
      obtain ⟨rfl, rfl⟩ := he
      exact ⟨[], [], List.prefix_rfl, by simpa using h⟩
    | cons c curr =>
      rw [bfsLoopE] at he
      rcases hl : bfsLevelE cmp f (c :: curr) s ([], seen) with ⟨s1, rl⟩
      cases rl with
      | ok st =>
        simp only [hl] at he
        obtain ⟨o1, h1⟩ := levelE_ok h hl
        obtain ⟨more, o2, -, h2⟩ := ih h1.turn he
        exact ⟨c :: curr ++ more, o1 ++ o2, List.prefix_append _ _, by simpa using h2⟩
      | panic w => simp [hl] at he
      | oof => simp [hl] at he

/-- A panic: the calls made before it, and the call in which it happened. -/
theorem loopE_panic {f : σ → A → σ × Res (List A)} {start base own : List A} {s₀ : σ} {fuel : Nat}
    {cs : List A} {outs : List (List A)} {s : σ} {curr seen : List A}
    (h : EInv cmp f start base own s₀ cs outs s curr [] seen) {s' : σ} {w : Panic}
    (he : bfsLoopE cmp fuel f s curr seen = (s', .panic w)) :
    ∃ more outs' x s1 post nx sn, (more ++ [x] <+: curr ∨ curr <+: more) ∧
      EInv cmp f start base own s₀ (cs ++ more) (outs ++ outs') s1 (x :: post) nx sn ∧
      f s1 x = (s', .panic w) := by
  induction fuel generalizing cs outs s curr seen with
  | zero => cases curr <;> simp [bfsLoopE] at he
  | succ fuel ih =>
    cases curr with
    | nil => simp [bfsLoopE] at he
    | cons c curr =>
      rw [bfsLoopE] at he
      rcases hl : bfsLevelE cmp f (c :: curr) s ([], seen) with ⟨s1, rl⟩
      cases rl with
      | ok st =>
        simp only [hl] at he
        obtain ⟨o1, h1⟩ := levelE_ok h hl
        obtain ⟨more, o2, x, s2, post, nx, sn, -, h2, h3⟩ := ih h1.turn he
        exact ⟨c :: curr ++ more, o1 ++ o2, x, s2, post, nx, sn,
          Or.inr (List.prefix_append _ _), by simpa using h2, h3⟩
      | panic w' =>
        simp only [hl, _root_.Prod.mk.injEq, Res.panic.injEq] at he
        obtain ⟨rfl, rfl⟩ := he
        obtain ⟨pre, x, post, outs', s2, nx, sn, e, h', hx⟩ := levelE_panic h hl
        exact ⟨pre, outs', x, s2, post, nx, sn, Or.inl ⟨post, by simp [e]⟩, h', hx⟩
      | oof => simp [hl] at he

/-- Not returning: stuck in a call, or the fuel was too small. -/
theorem loopE_oof {f : σ → A → σ × Res (List A)} {start base own : List A} {s₀ : σ} {fuel N : Nat}
    {cs : List A} {outs : List (List A)} {s : σ} {curr seen : List A}
    (h : EInv cmp f start base own s₀ cs outs s curr [] seen)
    (hb : ∀ cs outs s curr next seen, EInv cmp f start base own s₀ cs outs s curr next seen →
      seen.length ≤ N)
    (hf : N + 1 < fuel + seen.length) {s' : σ}
    (he : bfsLoopE cmp fuel f s curr seen = (s', .oof)) :
    ∃ cs' outs' s1 x, Session f start s₀ cs' outs' s1 ∧ (x ∈ start ∨ x ∈ outs'.flatten) ∧
      f s1 x = (s', .oof) := by
  induction fuel generalizing cs outs s curr seen with
  | zero => have := hb _ _ _ _ _ _ h; omega
  | succ fuel ih =>
    cases curr with
    | nil => simp [bfsLoopE] at he
    | cons c curr =>
      rw [bfsLoopE] at he
      rcases hl : bfsLevelE cmp f (c :: curr) s ([], seen) with ⟨s1, rl⟩
      cases rl with
      | ok st =>
        simp only [hl] at he
        obtain ⟨o1, h1⟩ := levelE_ok h hl
        by_cases hn : st.1 = []
        · rw [hn] at he
          cases fuel <;> simp [bfsLoopE] at he
        · refine ih h1.turn ?_ he
          have e0 := h.perm.length_eq
          have e1 := h1.perm.length_eq
          simp only [List.length_append, List.length_cons, List.length_nil] at e0 e1
          have : 0 < st.1.length := List.length_pos_iff.2 hn
          omega
      | panic w => simp [hl] at he
      | oof =>
        simp only [hl, _root_.Prod.mk.injEq, and_true] at he
        subst he
        exact levelE_oof h hl

/-- The answer does not depend on the fuel. -/
theorem loopE_mono {f : σ → A → σ × Res (List A)} {n m : Nat} (hnm : n ≤ m) {s : σ}
    {curr seen : List A} (h : (bfsLoopE cmp n f s curr seen).2 ≠ .oof) :
    bfsLoopE cmp m f s curr seen = bfsLoopE cmp n f s curr seen := by
  induction n generalizing m s curr seen with
  | zero =>
    cases curr with
    | nil => cases m <;> simp [bfsLoopE]
    | cons c cs => simp [bfsLoopE] at h
  | succ n ih =>
    obtain ⟨m, rfl⟩ : ∃ k, m = k + 1 := ⟨m - 1, by omega⟩
    cases curr with
    | nil => simp [bfsLoopE]
    | cons c cs =>
      rw [bfsLoopE] at h ⊢
      rw [bfsLoopE]
      rcases hl : bfsLevelE cmp f (c :: cs) s ([], seen) with ⟨s1, rl⟩
      cases rl with
      | ok st =>
        simp only [hl] at h ⊢
        exact ih (by omega) h
      | panic w => rfl
      | oof => rfl

/-- When the answers depend on the argument only, so does the search. -/
theorem levelE_pure {f : σ → A → σ × Res (List A)} {g : A → Res (List A)}
    (hfg : ∀ s x, (f s x).2 = g x) (curr : List A) (s : σ) (st : BSet A × BSet A) :
    (bfsLevelE cmp f curr s st).2 = bfsLevel cmp g curr st := by
  induction curr generalizing s st with
  | nil => rfl
  | cons c curr ih =>
    rw [bfsLevelE, bfsLevel]
    have := hfg s c
    rcases hf : f s c with ⟨s1, r⟩
    rw [hf] at this
    simp only at this
    rw [← this]
    cases r with
    | ok l => exact ih _ _
    | panic w => rfl
    | oof => rfl

theorem loopE_pure {f : σ → A → σ × Res (List A)} {g : A → Res (List A)}
    (hfg : ∀ s x, (f s x).2 = g x) (fuel : Nat) (curr : List A) (s : σ) (seen : BSet A) :
    (bfsLoopE cmp fuel f s curr seen).2 = bfsLoop cmp fuel g curr seen := by
  induction fuel generalizing s curr seen with
  | zero => cases curr <;> rfl
  | succ fuel ih =>
    cases curr with
    | nil => rfl
    | cons c cs =>
      rw [bfsLoopE, bfsLoop]
      have := levelE_pure (cmp := cmp) hfg (c :: cs) s ([], seen)
      rcases hl : bfsLevelE cmp f (c :: cs) s ([], seen) with ⟨s1, rl⟩
      rw [hl] at this
      simp only at this
      rw [← this]
      cases rl with
      | ok st => exact ih _ _ _
      | panic w => rfl
      | oof => rfl
end generic

end Bongo
