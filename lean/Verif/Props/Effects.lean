import Verif.Proof.Effects
import Verif.Props.State
import Verif.Props.Utils
/-!
# C109: what the library does with functions that have effects

`f s x = (s', r)`: the user's function, called on `x` in state `s`, leaves state `s'` and returns,
panics or does not return.  `Session` and `Chain` (`Verif.Spec.Effects`) say what was asked of it.
-/
set_option linter.unusedSectionVars false
namespace Bongo
open Std

/-! ## breadth_first_search -/
section bfs
variable {A : Type u} {σ : Type v} [Ord A] [TransOrd A] [LawfulEqOrd A]

theorem bfsE_init (f : σ → A → σ × Res (List A)) (init : List A) (s₀ : σ) :
    EInv compare f init (BSet.ofList compare init) [] s₀ [] [] s₀ (BSet.ofList compare init) [] [] :=
  ⟨.nil, List.Pairwise.nil, by simp, by simp, fun x hx => BSet.mem_ofList.1 hx, by simp, by simp, by simp⟩

/-- C109: a search that returns asked about the initial items, each once, in increasing order, and
then about the items of its answer, each once; and its answer consists of exactly the items that
occurred in the answers of the function. -/
theorem bfs_effects (f : σ → A → σ × Res (List A)) (init : List A) (s₀ s' : σ) (fuel : Nat)
    (r : BSet A) (h : breadthFirstSearchE compare fuel init f s₀ = (s', .ok r)) :
    ∃ first rest outs, Session f init s₀ (first ++ rest) outs s' ∧
      first.Pairwise (fun a b => compare a b = .lt) ∧ (∀ x, x ∈ first ↔ x ∈ init) ∧
      rest.Perm r ∧ r.Pairwise (fun a b => compare a b = .lt) ∧
      ∀ x, x ∈ r ↔ x ∈ outs.flatten := by
  obtain ⟨more, outs, ⟨rest, hm⟩, hi⟩ := loopE_ok (bfsE_init f init s₀) h
  subst hm
  refine ⟨BSet.ofList compare init, rest, outs, by simpa using hi.session, BSet.sorted_ofList init,
    fun x => BSet.mem_ofList, ?_, hi.sorted, fun x => ⟨fun hx => ?_, fun hx => ?_⟩⟩
  · have := hi.perm
    simp only [List.nil_append, List.append_nil] at this
    exact (List.perm_append_left_iff _).1 this
  · simpa using hi.known x hx
  · obtain ⟨y, hy, hxy⟩ := hi.covered x hx
    rwa [LawfulEqCmp.eq_of_compare hxy]

/-- C109: a search that panics panicked in a call of the function; before it, it had asked about
initial items, in increasing order, and then about items that the function had returned, each once. -/
theorem bfs_effects_panic (f : σ → A → σ × Res (List A)) (init : List A) (s₀ s' : σ) (fuel : Nat)
    (w : Panic) (h : breadthFirstSearchE compare fuel init f s₀ = (s', .panic w)) :
    ∃ cs outs s x, Session f init s₀ cs outs s ∧ f s x = (s', .panic w) ∧
      ∃ first rest, cs ++ [x] = first ++ rest ∧
        first.Pairwise (fun a b => compare a b = .lt) ∧ (∀ y ∈ first, y ∈ init) ∧
        rest.Nodup ∧ (∀ y ∈ rest, y ∈ outs.flatten) ∧ (rest = [] ∨ ∀ y ∈ init, y ∈ first) := by
  obtain ⟨more, outs, x, s, post, nx, sn, hcase, hi, hx⟩ := loopE_panic (bfsE_init f init s₀) h
  refine ⟨more, outs, s, x, by simpa using hi.session, hx, ?_⟩
  rcases hcase with hp | ⟨m, rfl⟩
  · exact ⟨more ++ [x], [], by simp, List.Pairwise.sublist hp.sublist (BSet.sorted_ofList init),
      fun y hy => BSet.mem_ofList.1 (hp.subset hy), List.nodup_nil, by simp, Or.inl rfl⟩
  · have hperm := hi.perm
    simp only [List.nil_append, List.append_assoc] at hperm
    have h2 := (List.perm_append_left_iff _).1 hperm
    have hnd : (m ++ (x :: post ++ nx)).Nodup := h2.nodup_iff.2 (BSet.sorted_nodup hi.sorted)
    have hsub : (m ++ [x]).Sublist (m ++ (x :: post ++ nx)) :=
      List.Sublist.append_left (by simp) m
    refine ⟨BSet.ofList compare init, m ++ [x], by simp, BSet.sorted_ofList init,
      fun y hy => BSet.mem_ofList.1 hy, hnd.sublist hsub, fun y hy => ?_,
      Or.inr fun y hy => BSet.mem_ofList.2 hy⟩
    simpa using hi.known y (h2.mem_iff.1 (hsub.subset hy))

/-- C109: a search does return (or panic) if the function, whatever state it is in, answers questions
about items of a finite collection by such items. -/
theorem bfs_effects_returns (f : σ → A → σ × Res (List A)) (init U : List A) (s₀ : σ)
    (hinit : ∀ x ∈ init, x ∈ U) (hret : ∀ s, ∀ x ∈ U, (f s x).2 ≠ .oof)
    (hU : ∀ s, ∀ x ∈ U, ∀ out, (f s x).2 = .ok out → ∀ y ∈ out, y ∈ U) :
    ∃ s' r, r ≠ .oof ∧ ∀ fuel, U.length + 2 ≤ fuel → breadthFirstSearchE compare fuel init f s₀ = (s', r) := by
  have hses : ∀ cs outs s, Session f init s₀ cs outs s →
      (∀ x ∈ outs.flatten, x ∈ U) := by
    intro cs outs s h
    induction h with
    | nil => simp
    | call hs hx hf ih =>
      intro y hy
      simp only [List.flatten_append, List.flatten_cons, List.flatten_nil, List.append_nil,
        List.mem_append] at hy
      rcases hy with hy | hy
      · exact ih y hy
      · exact hU _ _ (hx.elim (hinit _) (ih _)) _ (congrArg _root_.Prod.snd hf) y hy
  have hne : (breadthFirstSearchE compare (U.length + 2) init f s₀).2 ≠ .oof := by
    intro hoof
    obtain ⟨cs, outs, s, x, hs, hx, hf⟩ := loopE_oof (N := U.length) (bfsE_init f init s₀)
      (fun cs outs s curr next seen hi => nodup_subset_length (BSet.sorted_nodup hi.sorted)
        (fun x hx => hses _ _ _ hi.session x (by simpa using hi.known x hx)))
      (by simp) (_root_.Prod.ext rfl hoof :
        breadthFirstSearchE compare (U.length + 2) init f s₀ = (_, .oof))
    exact hret s x (hx.elim (hinit x) (hses _ _ _ hs x)) (congrArg _root_.Prod.snd hf)
  exact ⟨_, _, hne, fun fuel hf => loopE_mono hf hne⟩

/-- C109: where the answers of the function depend on the item only, its effects make no difference
to the answer of the search (C07 then says what the answer is). -/
theorem bfs_effects_pure (f : σ → A → σ × Res (List A)) (g : A → Res (List A))
    (hfg : ∀ s x, (f s x).2 = g x) (init : List A) (s₀ : σ) (fuel : Nat) :
    (breadthFirstSearchE compare fuel init f s₀).2 = breadthFirstSearch compare fuel init g :=
  loopE_pure hfg _ _ _ _
end bfs

/-- A function that records what it is asked, and answers `x` by `x + 1` and by the number of calls so
far, up to 3: the search from `[1, 0, 1]` asks about 0, 1, then 1, 2, then 3 and then 0 again. -/
example : breadthFirstSearchE compare 6 [1, 0, 1]
      (fun (log : List Nat) x => (log ++ [x], .ok ([x + 1, log.length].filter (· < 4)))) [] =
    ([0, 1, 0, 1, 2, 3], .ok [0, 1, 2, 3]) := by decide

/-- The hypotheses of `bfs_effects_returns` hold of that function; and a function that panics at its
third call. -/
example :
    let f : List Nat → Nat → List Nat × Res (List Nat) :=
      fun log x => (log ++ [x], .ok ([x + 1, log.length].filter (· < 4)))
    (∀ s, ∀ x ∈ [0, 1, 2, 3], (f s x).2 ≠ .oof) ∧
    (∀ s, ∀ x ∈ [0, 1, 2, 3], ∀ out, (f s x).2 = .ok out → ∀ y ∈ out, y ∈ [0, 1, 2, 3]) ∧
    breadthFirstSearchE compare 6 [1, 0, 1]
      (fun (n : Nat) x => (n + 1, if n = 2 then .panic .noRule else .ok [x + 1])) 0 =
    (3, .panic .noRule) := by
  refine ⟨by simp, ?_, by decide⟩
  intro s x _ out h y hy
  simp only [Res.ok.injEq] at h
  subst h
  have := (List.mem_filter.1 hy).2
  simp at this ⊢
  omega

/-! ## take_closure -/
section closure
variable {T NT AK AV : Type} {σ : Type v}
variable [Ord T] [Ord NT] [TransOrd T] [TransOrd NT] [LawfulEqOrd T] [LawfulEqOrd NT]
variable (g : Grammar T NT AK AV) (addr : NT → Nat → Nat)

theorem closureE_init (f : σ → ProdState T NT AK AV → σ × Res (List (ProdState T NT AK AV)))
    (set : ProdStateSet T NT AK AV) (hs : BSet.Sorted (ProdState.cmp addr) set) (s₀ : σ) :
    EInv (ProdState.cmp addr) f set [] set s₀ [] [] s₀ set [] set :=
  ⟨.nil, hs, by simp, by simp, by simp, fun _ h => h, fun _ h => Or.inl h, by simp⟩

theorem closureLoopE_set {fuel : Nat}
    {f : σ → ProdState T NT AK AV → σ × Res (List (ProdState T NT AK AV))}
    {set : ProdStateSet T NT AK AV} {s₀ : σ} (h0 : 0 < fuel) :
    ProdStateSet.closureLoopE addr fuel f s₀ set set =
      bfsLoopE (ProdState.cmp addr) fuel f s₀ set set := by
  cases set with
  | nil =>
    obtain ⟨k, rfl⟩ : ∃ k, fuel = k + 1 := ⟨fuel - 1, by omega⟩
    rw [ProdStateSet.closureLoopE_nil]; rfl
  | cons c cs => exact ProdStateSet.closureLoopE_eq _ _ _ _ _ _

/-- C109: a `take_closure` that returns asked about every state of the result exactly once, first about
the original ones in order; the result has the original states and otherwise states the function
returned, and for each state the function returned one of the same production. -/
theorem takeClosure_effects (hg : g.Accepted) (ha : AddrInj g addr) (set : ProdStateSet T NT AK AV)
    (hset : ProdStateSet.Obtained addr set) (hsg : ∀ x ∈ set, x.prod ∈ g.prods)
    (f : σ → ProdState T NT AK AV → σ × Res (List (ProdState T NT AK AV)))
    (hf : ∀ s x out, (f s x).2 = .ok out → ∀ y ∈ out, y.prod ∈ g.prods)
    (s₀ s' : σ) (fuel : Nat) (r : ProdStateSet T NT AK AV)
    (h : ProdStateSet.takeClosureE addr fuel f s₀ set = (s', r, .ok ())) :
    ∃ rest outs, Session f set s₀ (set ++ rest) outs s' ∧ (set ++ rest).Perm r ∧
      (∀ x ∈ r, x ∈ set ∨ x ∈ outs.flatten) ∧
      (∀ x ∈ outs.flatten, ∃ z ∈ r, z.prod = x.prod) ∧
      ∀ x ∈ r, ∀ y ∈ r, x.prod = y.prod → x = y := by
  have hses : ∀ cs outs s, Session f set s₀ cs outs s → ∀ x ∈ outs.flatten, x.prod ∈ g.prods := by
    intro cs outs s h
    induction h with
    | nil => simp
    | call hs hx hc ih =>
      intro y hy
      simp only [List.flatten_append, List.flatten_cons, List.flatten_nil, List.append_nil,
        List.mem_append] at hy
      exact hy.elim (ih y) (hf _ _ _ (congrArg _root_.Prod.snd hc) y)
  unfold ProdStateSet.takeClosureE at h
  have h0 : 0 < fuel := by
    rcases Nat.eq_zero_or_pos fuel with rfl | h0
    · simp [ProdStateSet.closureLoopE] at h
    · exact h0
  rw [closureLoopE_set addr h0] at h
  rcases hl : bfsLoopE (ProdState.cmp addr) fuel f s₀ set set with ⟨s1, res⟩
  cases res with
  | ok r' =>
    simp only [hl, _root_.Prod.mk.injEq, and_true] at h
    obtain ⟨rfl, rfl⟩ := h
    obtain ⟨more, outs, ⟨rest, hm⟩, hi⟩ := loopE_ok (closureE_init addr f set hset.sorted s₀) hl
    subst hm
    have hrg : ∀ x ∈ r', x.prod ∈ g.prods := fun x hx =>
      (hi.known x hx).elim (hsg x) (fun h => hses _ _ _ hi.session x (by simpa using h))
    refine ⟨rest, outs, by simpa using hi.session, by simpa using hi.perm,
      fun x hx => by simpa using hi.known x hx, ?_, ?_⟩
    · intro x hx
      obtain ⟨z, hz, hxz⟩ := hi.covered x (by simpa using hx)
      exact ⟨z, hz, ((prodCmp_eq hg.valid.toWF ha (hses _ _ _ hi.session x (by simpa using hx))
        (hrg z hz)).1 hxz).symm⟩
    · intro x hx y hy hxy
      exact ProdStateSet.sorted_unique hi.sorted hx hy
        ((prodCmp_eq hg.valid.toWF ha (hrg x hx) (hrg y hy)).2 hxy)
  | panic w => simp [hl] at h
  | oof => simp [hl] at h

/-- C109: a `take_closure` that panics panicked in a call of the function and leaves the set as it was;
it had asked about no production twice. -/
theorem takeClosure_effects_panic (hg : g.Accepted) (ha : AddrInj g addr)
    (set : ProdStateSet T NT AK AV) (hset : ProdStateSet.Obtained addr set)
    (f : σ → ProdState T NT AK AV → σ × Res (List (ProdState T NT AK AV)))
    (s₀ s' : σ) (fuel : Nat) (r : ProdStateSet T NT AK AV) (w : Panic)
    (h : ProdStateSet.takeClosureE addr fuel f s₀ set = (s', r, .panic w)) :
    r = set ∧ ∃ cs outs s x, Session f set s₀ cs outs s ∧ f s x = (s', .panic w) ∧
      (x ∈ set ∨ x ∈ outs.flatten) ∧ (cs ++ [x]).Pairwise (fun a b => a.prod ≠ b.prod) := by
  unfold ProdStateSet.takeClosureE at h
  have h0 : 0 < fuel := by
    rcases Nat.eq_zero_or_pos fuel with rfl | h0
    · simp [ProdStateSet.closureLoopE] at h
    · exact h0
  rw [closureLoopE_set addr h0] at h
  rcases hl : bfsLoopE (ProdState.cmp addr) fuel f s₀ set set with ⟨s1, res⟩
  cases res with
  | ok r' => simp [hl] at h
  | panic w' =>
    simp only [hl, _root_.Prod.mk.injEq, Res.panic.injEq] at h
    obtain ⟨rfl, rfl, rfl⟩ := h
    obtain ⟨more, outs, x, s, post, nx, sn, -, hi, hx⟩ :=
      loopE_panic (closureE_init addr f set hset.sorted s₀) hl
    refine ⟨rfl, more, outs, s, x, by simpa using hi.session, hx, by simpa using hi.currKnown x (by simp), ?_⟩
    have hne : sn.Pairwise (fun a b => a.prod ≠ b.prod) := by
      refine List.Pairwise.imp ?_ hi.sorted
      intro a b hab he
      unfold ProdState.cmp prodCmp at hab
      rw [he] at hab
      simp at hab
    have hperm : (more ++ (x :: post) ++ nx).Perm sn := by simpa using hi.perm
    have hall := (hperm.pairwise_iff (R := fun a b : ProdState T NT AK AV => a.prod ≠ b.prod)
      (fun h => Ne.symm h)).2 hne
    refine hall.sublist ?_
    rw [List.append_assoc]
    exact List.Sublist.append_left (by simp) more
  | oof => simp [hl] at h

/-- C109: `take_closure` returns or panics if the function does, whatever its effects, provided it
stays in the grammar. -/
theorem takeClosure_effects_returns (set : ProdStateSet T NT AK AV)
    (hset : ProdStateSet.Obtained addr set) (hsg : ∀ x ∈ set, x.prod ∈ g.prods)
    (f : σ → ProdState T NT AK AV → σ × Res (List (ProdState T NT AK AV)))
    (hf : ∀ s x out, (f s x).2 = .ok out → ∀ y ∈ out, y.prod ∈ g.prods)
    (hret : ∀ s x, (f s x).2 ≠ .oof) (s₀ : σ) :
    ∃ s' r res, res ≠ .oof ∧ ∀ fuel, g.prods.length + 2 ≤ fuel →
      ProdStateSet.takeClosureE addr fuel f s₀ set = (s', r, res) := by
  have hses : ∀ cs outs s, Session f set s₀ cs outs s → ∀ x ∈ outs.flatten, x.prod ∈ g.prods := by
    intro cs outs s h
    induction h with
    | nil => simp
    | call hs hx hc ih =>
      intro y hy
      simp only [List.flatten_append, List.flatten_cons, List.flatten_nil, List.append_nil,
        List.mem_append] at hy
      exact hy.elim (ih y) (hf _ _ _ (congrArg _root_.Prod.snd hc) y)
  have hbound : ∀ s : ProdStateSet T NT AK AV, BSet.Sorted (ProdState.cmp addr) s →
      (∀ x ∈ s, x.prod ∈ g.prods) → s.length ≤ g.prods.length := by
    intro s hs hsU
    have : (s.map (fun x => addr x.prod.head x.prod.index)).length ≤
        (g.prods.map (fun p => addr p.head p.index)).length := by
      apply nodup_subset_length
      · unfold List.Nodup
        rw [List.pairwise_map]
        refine List.Pairwise.imp ?_ hs
        intro a b hab he
        unfold ProdState.cmp prodCmp at hab
        rw [he] at hab
        simp at hab
      · intro x hx
        obtain ⟨y, hy, rfl⟩ := List.mem_map.1 hx
        exact List.mem_map.2 ⟨y.prod, hsU y hy, rfl⟩
    simpa using this
  have hne : (bfsLoopE (ProdState.cmp addr) (g.prods.length + 2) f s₀ set set).2 ≠ .oof := by
    intro hoof
    obtain ⟨cs, outs, s, x, hs, hx, hc⟩ := loopE_oof (N := g.prods.length)
      (closureE_init addr f set hset.sorted s₀)
      (fun cs outs s curr next seen hi => hbound seen hi.sorted fun x hx =>
        (hi.known x hx).elim (hsg x) (hses _ _ _ hi.session x))
      (by omega) (_root_.Prod.ext rfl hoof :
        bfsLoopE (ProdState.cmp addr) (g.prods.length + 2) f s₀ set set = (_, .oof))
    exact hret s x (congrArg _root_.Prod.snd hc)
  have heq : ∀ fuel, g.prods.length + 2 ≤ fuel → ProdStateSet.takeClosureE addr fuel f s₀ set =
      ProdStateSet.takeClosureE addr (g.prods.length + 2) f s₀ set := by
    intro fuel hfu
    unfold ProdStateSet.takeClosureE
    rw [closureLoopE_set addr (by omega), closureLoopE_set addr (by omega), loopE_mono hfu hne]
  refine ⟨_, _, _, ?_, fun fuel hfu => heq fuel hfu⟩
  show (ProdStateSet.takeClosureE addr (g.prods.length + 2) f s₀ set).2.2 ≠ .oof
  unfold ProdStateSet.takeClosureE
  rw [closureLoopE_set addr (by omega)]
  rcases hl : bfsLoopE (ProdState.cmp addr) (g.prods.length + 2) f s₀ set set with ⟨s1, res⟩
  cases res with
  | ok r => simp
  | panic w => simp
  | oof => rw [hl] at hne; exact absurd rfl hne

/-- C109: where the answers depend on the state only, the effects make no difference (C50 then says
what the result is). -/
theorem takeClosure_effects_pure (set : ProdStateSet T NT AK AV)
    (f : σ → ProdState T NT AK AV → σ × Res (List (ProdState T NT AK AV)))
    (c : ProdState T NT AK AV → List (ProdState T NT AK AV))
    (hfc : ∀ s x, (f s x).2 = .ok (c x)) (s₀ : σ) (fuel : Nat) (r : ProdStateSet T NT AK AV) :
    (ProdStateSet.takeClosureE addr fuel f s₀ set).2 = (r, .ok ()) ↔
      ProdStateSet.takeClosure addr fuel c set = .ok r := by
  have h := ProdStateSet.closureLoopE_pure (addr := addr) hfc fuel s₀ set set
  unfold ProdStateSet.takeClosureE ProdStateSet.takeClosure
  rw [← h]
  rcases ProdStateSet.closureLoopE addr fuel f s₀ set set with ⟨s1, res⟩
  cases res <;> simp
end closure

/-- "The productions of the nonterminal after the position", recording the heads asked about; from the
first production the closure asks about three states, once each. -/
example :
    let f : List Nat → ProdState Nat Nat Nat Unit → List Nat × Res (List (ProdState Nat Nat Nat Unit)) :=
      fun log s => (log ++ [s.prod.head], .ok (nullExample.prods.filterMap fun p =>
        if s.nextElem = some (.nonterm p.head) then some (.fromStart p) else none))
    let set := (nullExample.prods.take 1).foldl
      (fun s p => ProdStateSet.add exampleAddr s (.fromStart p)) ProdStateSet.newEmpty
    (∀ s x out, (f s x).2 = .ok out → ∀ y ∈ out, y.prod ∈ nullExample.prods) ∧
    ((ProdStateSet.takeClosureE exampleAddr 9 f [] set).1.length = 3) ∧
    ((ProdStateSet.takeClosureE exampleAddr 9 f [] set).2.1.length = 3) ∧
    (ProdStateSet.takeClosureE exampleAddr 9 f [] set).2.2 = .ok () := by
  refine ⟨?_, by decide, by decide, by decide⟩
  intro s x out h y hy
  simp only [Res.ok.injEq] at h
  subst h
  simp only [List.mem_filterMap] at hy
  obtain ⟨p, hp, h⟩ := hy
  split at h
  · cases h; exact hp
  · cases h

/-! ## fixed_point -/
section fixedPoint
variable {A : Type u} {σ : Type v} [DecidableEq A]

theorem fixedPointE_chain {apply : σ → A → σ × Res A} {a₀ : A} {s₀ : σ} (fuel : Nat) {a : A} {s : σ}
    (hc : Chain apply a₀ s₀ a s) {s' : σ} {res : Res A} (h : fixedPointE fuel a apply s = (s', res)) :
    (∀ r, res = .ok r → ∃ s1, Chain apply a₀ s₀ r s1 ∧ apply s1 r = (s', .ok r)) ∧
    ∀ w, res = .panic w → ∃ b s1, Chain apply a₀ s₀ b s1 ∧ apply s1 b = (s', .panic w) := by
  induction fuel generalizing a s with
  | zero =>
    simp only [fixedPointE, _root_.Prod.mk.injEq] at h
    obtain ⟨-, rfl⟩ := h
    exact ⟨fun r h => (by cases h), fun w h => (by cases h)⟩
  | succ fuel ih =>
    rw [fixedPointE] at h
    rcases ha : apply s a with ⟨s1, r1⟩
    rw [ha] at h
    cases r1 with
    | ok next =>
      simp only at h
      split at h
      · rename_i he
        subst he
        cases h
        exact ⟨fun r h => by cases h; exact ⟨s, hc, ha⟩, fun w h => (by cases h)⟩
      · rename_i hne
        exact ih (hc.call ha hne) h
    | panic w =>
      cases h
      exact ⟨fun r h => (by cases h), fun w' h => by cases h; exact ⟨a, s, hc, ha⟩⟩
    | oof =>
      cases h
      exact ⟨fun r h => (by cases h), fun w h => (by cases h)⟩

theorem fixedPointE_run {apply : σ → A → σ × Res A} {a₀ : A} {s₀ : σ} {b : A} {s : σ}
    (hc : Chain apply a₀ s₀ b s) :
    ∃ n, ∀ fuel, fixedPointE (n + fuel) a₀ apply s₀ = fixedPointE fuel b apply s := by
  induction hc with
  | nil => exact ⟨0, fun fuel => by rw [Nat.zero_add]⟩
  | call _ ha hne ih =>
    obtain ⟨n, hn⟩ := ih
    refine ⟨n + 1, fun fuel => ?_⟩
    rw [Nat.add_assoc, Nat.add_comm 1 fuel, hn, fixedPointE, ha]
    simp [hne]

/-- C109: `fixed_point` returns exactly what is reached by applying the function again and again, first
to the start and then to its own answers, until an application gives its argument back; it stops at
the first such application. -/
theorem fixedPoint_effects (apply : σ → A → σ × Res A) (a₀ r : A) (s₀ s' : σ) :
    (∃ fuel, fixedPointE fuel a₀ apply s₀ = (s', .ok r)) ↔
      ∃ s, Chain apply a₀ s₀ r s ∧ apply s r = (s', .ok r) := by
  constructor
  · rintro ⟨fuel, h⟩
    exact (fixedPointE_chain fuel .nil h).1 r rfl
  · rintro ⟨s, hc, ha⟩
    obtain ⟨n, hn⟩ := fixedPointE_run hc
    exact ⟨n + 1, by rw [hn, fixedPointE, ha]; simp⟩

/-- C109: `fixed_point` panics exactly when such an application does. -/
theorem fixedPoint_effects_panic (apply : σ → A → σ × Res A) (a₀ : A) (s₀ s' : σ) (w : Panic) :
    (∃ fuel, fixedPointE fuel a₀ apply s₀ = (s', .panic w)) ↔
      ∃ b s, Chain apply a₀ s₀ b s ∧ apply s b = (s', .panic w) := by
  constructor
  · rintro ⟨fuel, h⟩
    exact (fixedPointE_chain fuel .nil h).2 w rfl
  · rintro ⟨b, s, hc, ha⟩
    obtain ⟨n, hn⟩ := fixedPointE_run hc
    exact ⟨n + 1, by rw [hn, fixedPointE, ha]⟩

/-- C109: the answer of `fixed_point` for a function without effects is that of C09. -/
theorem fixedPoint_effects_pure (apply : σ → A → σ × Res A) (g : A → A)
    (hg : ∀ s x, (apply s x).2 = .ok (g x)) (a₀ : A) (s₀ : σ) (fuel : Nat) :
    (fixedPointE fuel a₀ apply s₀).2 = fixedPoint fuel a₀ g := by
  induction fuel generalizing a₀ s₀ with
  | zero => rfl
  | succ fuel ih =>
    rw [fixedPointE, fixedPoint]
    have := hg s₀ a₀
    rcases ha : apply s₀ a₀ with ⟨s1, r1⟩
    rw [ha] at this
    simp only at this
    subst this
    simp only
    split
    · rfl
    · exact ih _ _
end fixedPoint

/-- A function that halves, and reports how often it was called; and one that never gives its
argument back at the same call number until 5 calls were made. -/
example : fixedPointE 9 20 (fun (n : Nat) x => (n + 1, .ok (x / 2))) 0 = (6, .ok 0) ∧
    fixedPointE 9 20 (fun (n : Nat) x => (n + 1, .ok (if n < 5 then x + 1 else x))) 0 = (6, .ok 25) ∧
    fixedPointE 9 20 (fun (n : Nat) x => (n + 1, if n < 5 then .ok (x + 1) else .panic .noRule)) 0 =
      (6, .panic .noRule) := by decide

end Bongo
