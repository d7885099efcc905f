import Verif.Model.Collect
import Verif.Props.State
import Verif.Props.LalrExamples
/-!
# C115: collecting production states, and collecting in general
-/
namespace Bongo
set_option linter.unusedSectionVars false
open Std
variable {T NT AK AV : Type}

section
variable {K : Type} {cmp : K → K → Ordering} [TransCmp cmp]

theorem dedupLast_cons_head (y : K) (s : List K) :
    ∃ y' s', dedupLast cmp (y :: s) = y' :: s' ∧ cmp y y' = .eq := by
  induction s generalizing y with
  | nil => exact ⟨y, [], rfl, cmp_self y⟩
  | cons z s ih =>
    by_cases h : cmp y z = .eq
    · obtain ⟨y', s', h1, h2⟩ := ih z
      exact ⟨y', s', by simp only [dedupLast, h, if_true, h1], (cmp_congr_left h).trans h2⟩
    · exact ⟨y, dedupLast cmp (z :: s), by simp only [dedupLast, h, if_false], cmp_self y⟩

theorem dedupLast_stableInsert (x : K) (s : List K) :
    dedupLast cmp (stableInsert cmp x s) = BSet.insert cmp (dedupLast cmp s) x := by
  induction s with
  | nil => rfl
  | cons y s ih =>
    obtain ⟨y', s', h1, h2⟩ := dedupLast_cons_head (cmp := cmp) y s
    have hx : cmp x y' = cmp x y := (cmp_congr_right h2).symm
    cases hc : cmp x y with
    | lt =>
      simp only [stableInsert, hc, dedupLast]
      rw [h1, BSet.insert, hx, hc]
      simp
    | eq =>
      simp only [stableInsert, hc, dedupLast, if_true]
      rw [h1, BSet.insert, hx, hc]
    | gt =>
      simp only [stableInsert, hc]
      cases s with
      | nil =>
        have : cmp y x = .lt := by rw [OrientedCmp.eq_swap (cmp := cmp), hc]; rfl
        simp [stableInsert, dedupLast, this, BSet.insert, hc]
      | cons z s =>
        by_cases hz : cmp y z = .eq
        · have hxz : cmp x z = .gt := by rw [← cmp_congr_right hz, hc]
          have e1 : stableInsert cmp x (z :: s) = z :: stableInsert cmp x s := by
            simp only [stableInsert, hxz]
          rw [e1] at ih ⊢
          simp only [dedupLast, hz, if_true]
          exact ih
        · have hne : ∀ w u, stableInsert cmp x (z :: s) = w :: u → cmp y w ≠ .eq := by
            intro w u h
            have hyx : cmp y x = .lt := by rw [OrientedCmp.eq_swap (cmp := cmp), hc]; rfl
            unfold stableInsert at h
            cases hxz : cmp x z <;> simp only [hxz, List.cons.injEq] at h <;> obtain ⟨rfl, -⟩ := h
            · rw [hyx]; decide
            · rw [hyx]; decide
            · exact hz
          cases hs : stableInsert cmp x (z :: s) with
          | nil => unfold stableInsert at hs; cases hxz : cmp x z <;> simp [hxz] at hs
          | cons w u =>
            rw [hs] at ih
            simp only [dedupLast, hne w u hs, if_false, hz, BSet.insert, hc]
            rw [ih]

/-- Sorting and dropping is inserting from the right. -/
theorem bulk_eq (l : List K) : BSet.collect cmp .bulk l = BSet.ofList cmp l.reverse := by
  unfold BSet.collect BSet.ofList BSet.insertAll
  rw [List.foldl_reverse]
  induction l with
  | nil => rfl
  | cons x l ih => simp only [stableSort, dedupLast_stableInsert, List.foldr_cons, ih]

theorem mem_ofList_first (l : List K) (x : K) :
    x ∈ BSet.ofList cmp l ↔ ∃ l₁ l₂, l = l₁ ++ x :: l₂ ∧ ∀ y ∈ l₁, cmp x y ≠ .eq := by
  have hins : ∀ (l : List K) (x : K), x ∈ BSet.ofList cmp l → x ∈ l := by
    intro l
    induction l using List.reverseRecOn with
    | nil => simp [BSet.ofList, BSet.insertAll]
    | append_singleton l a ih =>
      intro x hx
      rw [BSet.ofList, BSet.insertAll, List.foldl_append, List.foldl_cons, List.foldl_nil] at hx
      rcases BSet.mem_insert_imp hx with rfl | h
      · simp
      · simp [ih x h]
  have hrep : ∀ (l : List K) (x : K), x ∈ l → ∃ y ∈ BSet.ofList cmp l, cmp x y = .eq := by
    intro l
    induction l using List.reverseRecOn with
    | nil => simp
    | append_singleton l a ih =>
      intro x hx
      rw [BSet.ofList, BSet.insertAll, List.foldl_append, List.foldl_cons, List.foldl_nil]
      apply BSet.contains_iff.1
      rw [BSet.contains_insert]
      rcases List.mem_append.1 hx with h | h
      · have := BSet.contains_iff.2 (ih x h)
        rw [BSet.ofList, BSet.insertAll] at this
        simp [this]
      · rw [List.mem_singleton] at h; subst h; simp [cmp_self]
  induction l using List.reverseRecOn with
  | nil => simp [BSet.ofList, BSet.insertAll]
  | append_singleton l a ih =>
    have happ : BSet.ofList cmp (l ++ [a]) = BSet.insert cmp (BSet.ofList cmp l) a := by
      simp [BSet.ofList, BSet.insertAll]
    rw [happ, BSet.mem_insert_sorted (BSet.sorted_ofList l), BSet.not_contains_iff,
      show x ∈ BSet.ofList cmp l ↔ ∃ l₁ l₂, l = l₁ ++ x :: l₂ ∧ ∀ y ∈ l₁, cmp x y ≠ .eq from ih]
    constructor
    · rintro (⟨l₁, l₂, rfl, h⟩ | ⟨rfl, h⟩)
      · exact ⟨l₁, l₂ ++ [a], by simp, h⟩
      · refine ⟨l, [], rfl, fun y hy he => ?_⟩
        obtain ⟨z, hz, hyz⟩ := hrep l y hy
        exact h z hz ((cmp_congr_left he).trans hyz)
    · rintro ⟨l₁, l₂, h1, h2⟩
      rcases List.eq_nil_or_concat l₂ with rfl | ⟨l₃, b, rfl⟩
      · obtain ⟨rfl, h3⟩ := List.append_inj' h1 rfl
        simp only [List.cons.injEq, and_true] at h3
        subst h3
        exact .inr ⟨rfl, fun y hy => h2 y (hins _ y hy)⟩
      · rw [List.concat_eq_append, show l₁ ++ x :: (l₃ ++ [b]) = (l₁ ++ x :: l₃) ++ [b] by simp] at h1
        obtain ⟨rfl, -⟩ := List.append_inj' h1 rfl
        exact .inl ⟨l₁, l₃, rfl, h2⟩

/-- C115: collecting keeps, of items that are equal under the order, the first (versions of std that insert)
or the last (versions that sort), and nothing else is lost. -/
theorem collect_set_exact (l : List K) (x : K) :
    (x ∈ BSet.collect cmp .inserting l ↔ ∃ l₁ l₂, l = l₁ ++ x :: l₂ ∧ ∀ y ∈ l₁, cmp x y ≠ .eq) ∧
    (x ∈ BSet.collect cmp .bulk l ↔ ∃ l₁ l₂, l = l₁ ++ x :: l₂ ∧ ∀ y ∈ l₂, cmp x y ≠ .eq) := by
  refine ⟨mem_ofList_first l x, ?_⟩
  rw [bulk_eq, mem_ofList_first]
  constructor
  · rintro ⟨l₁, l₂, h, h2⟩
    refine ⟨l₂.reverse, l₁.reverse, ?_, fun y hy => h2 y (List.mem_reverse.1 hy)⟩
    rw [← List.reverse_reverse l, h]; simp
  · rintro ⟨l₁, l₂, rfl, h2⟩
    exact ⟨l₂.reverse, l₁.reverse, by simp, fun y hy => h2 y (List.mem_reverse.1 hy)⟩

/-- Both versions of std meet what the theorems about sets of states (C48, C72) assume of collecting. -/
theorem collect_set_spec (std : StdCollect) : CollectSpec cmp (BSet.collect cmp std) := by
  have hof : ∀ l : List K, BSet.Sorted cmp (BSet.ofList cmp l) ∧ (∀ x ∈ BSet.ofList cmp l, x ∈ l) ∧
      ∀ x ∈ l, ∃ y ∈ BSet.ofList cmp l, cmp x y = .eq := by
    intro l
    refine ⟨BSet.sorted_ofList l, fun x hx => ?_, ?_⟩
    · obtain ⟨l₁, l₂, rfl, -⟩ := (mem_ofList_first l x).1 hx
      simp
    · intro x hx
      have : ∃ l₁ y l₂, l = l₁ ++ y :: l₂ ∧ cmp x y = .eq ∧ ∀ z ∈ l₁, cmp x z ≠ .eq := by
        clear * - hx
        induction l with
        | nil => cases hx
        | cons a l ih =>
          by_cases ha : cmp x a = .eq
          · exact ⟨[], a, l, rfl, ha, by simp⟩
          · rcases List.mem_cons.1 hx with rfl | hx
            · exact absurd (cmp_self x) ha
            · obtain ⟨l₁, y, l₂, rfl, h1, h2⟩ := ih hx
              exact ⟨a :: l₁, y, l₂, rfl, h1, by simpa using ⟨ha, h2⟩⟩
      obtain ⟨l₁, y, l₂, rfl, h1, h2⟩ := this
      exact ⟨y, (mem_ofList_first _ y).2 ⟨l₁, l₂, rfl, fun z hz he => h2 z hz ((cmp_congr_left h1).trans he)⟩, h1⟩
  cases std with
  | inserting => exact ⟨fun l => (hof l).1, fun l => (hof l).2.1, fun l => (hof l).2.2⟩
  | bulk =>
    refine ⟨fun l => ?_, fun l x hx => ?_, fun l x hx => ?_⟩
    · rw [bulk_eq]; exact (hof _).1
    · rw [bulk_eq] at hx; exact List.mem_reverse.1 ((hof _).2.1 x hx)
    · rw [bulk_eq]; exact (hof _).2.2 x (List.mem_reverse.2 hx)

/-- For orders that agree with `==` the versions of std do not differ: this is why `ofList` is used in the
rest of the model. -/
theorem collect_set_lawful [LawfulEqCmp cmp] (std : StdCollect) (l : List K) :
    BSet.collect cmp std l = BSet.ofList cmp l := by
  cases std with
  | inserting => rfl
  | bulk =>
    rw [bulk_eq]
    exact BSet.ext (BSet.sorted_ofList _) (BSet.sorted_ofList _) fun k => by
      rw [BSet.mem_ofList, BSet.mem_ofList, List.mem_reverse]
end

section
variable {K V : Type} {cmp : K → K → Ordering} [TransCmp cmp]

instance onKey_trans : TransCmp (fun a b : K × V => cmp a.1 b.1) where
  eq_swap := by intro a b; exact OrientedCmp.eq_swap (cmp := cmp)
  isLE_trans := by intro a b c; exact TransCmp.isLE_trans (cmp := cmp)

theorem map_bulk_eq (l : List (K × V)) :
    BMap.collect cmp .bulk l = BSet.collect (fun a b : K × V => cmp a.1 b.1) .bulk l := rfl

/-- C115: collecting pairs in versions of std that sort: of the pairs with equal keys the last. -/
theorem collect_map_exact (l : List (K × V)) (e : K × V) :
    e ∈ BMap.collect cmp .bulk l ↔ ∃ l₁ l₂, l = l₁ ++ e :: l₂ ∧ ∀ y ∈ l₂, cmp e.1 y.1 ≠ .eq := by
  rw [map_bulk_eq]
  exact (collect_set_exact (cmp := fun a b : K × V => cmp a.1 b.1) l e).2

/-- Both versions of std meet what the theorems about LALR states (C51, C52, C73) assume of collecting. -/
theorem collect_map_spec (std : StdCollect) : CollectMapSpec cmp (BMap.collect (V := V) cmp std) := by
  cases std with
  | inserting => exact ofList_collectMapSpec cmp
  | bulk =>
    have h := collect_set_spec (cmp := fun a b : K × V => cmp a.1 b.1) .bulk
    refine ⟨fun l => h.sorted l, fun l e he => ⟨e, h.sub l e he, rfl⟩, fun l e he => ?_, fun l => h.all l⟩
    obtain ⟨l₁, l₂, rfl, h2⟩ := (collect_map_exact l e).1 he
    exact ⟨l₁, e.1, l₂, rfl, cmp_self _, fun y hy hc => h2 y hy (cmp_eq_symm hc)⟩

/-- For keys whose order agrees with `==` the versions do not differ. -/
theorem collect_map_lawful [LawfulEqCmp cmp] (std : StdCollect) (l : List (K × V)) :
    BMap.collect cmp std l = BMap.ofList cmp l := by
  cases std with
  | inserting => rfl
  | bulk =>
    have hs := (collect_map_spec (cmp := cmp) (V := V) .bulk).sorted l
    have ho := ofList_collectMapSpec (V := V) cmp
    refine BMap.ext hs (BMap.sorted_ofList _) fun k => ?_
    apply Option.ext
    intro v
    rw [← BMap.mem_iff_get? hs, ← BMap.mem_iff_get? (BMap.sorted_ofList _), collect_map_exact]
    constructor
    · rintro ⟨l₁, l₂, rfl, h⟩
      obtain ⟨⟨k', v'⟩, h1, h2⟩ := ho.all (l₁ ++ (k, v) :: l₂) (k, v) (by simp)
      have hk : k = k' := LawfulEqCmp.eq_of_compare h2
      subst hk
      obtain ⟨m₁, k'', m₂, h3, h4, h5⟩ := ho.value _ _ h1
      have hk : k'' = k := LawfulEqCmp.eq_of_compare h4
      subst hk
      suffices v = v' by subst this; exact h1
      -- both decompositions are at the last pair with this key
      have key : ∀ (l₁ m₁ l₂ m₂ : List (K × V)), l₁ ++ (k'', v) :: l₂ = m₁ ++ (k'', v') :: m₂ →
          (∀ y ∈ l₂, cmp k'' y.1 ≠ .eq) → (∀ y ∈ m₂, cmp y.1 k'' ≠ .eq) → v = v' := by
        intro l₁
        induction l₁ with
        | nil =>
          intro m₁ l₂ m₂ h a b
          cases m₁ with
          | nil => simp at h; exact h.1
          | cons x m₁ =>
            simp only [List.nil_append, List.cons_append, List.cons.injEq] at h
            exact absurd (cmp_self k'') (a (k'', v') (by rw [h.2]; simp))
        | cons x l₁ ih =>
          intro m₁ l₂ m₂ h a b
          cases m₁ with
          | nil =>
            simp only [List.nil_append, List.cons_append, List.cons.injEq] at h
            exact absurd (cmp_self k'') (b (k'', v) (by rw [← h.2]; simp))
          | cons y m₁ =>
            simp only [List.cons_append, List.cons.injEq] at h
            exact ih m₁ l₂ m₂ h.2 a b
      exact key _ _ _ _ h3 h h5
    · intro h1
      obtain ⟨m₁, k'', m₂, h3, h4, h5⟩ := ho.value _ _ h1
      have hk : k'' = k := LawfulEqCmp.eq_of_compare h4
      subst hk
      exact ⟨m₁, m₂, h3, fun y hy hc => h5 y hy (cmp_eq_symm hc)⟩
end

/-! ## Production states -/

section
variable [Ord T] [Ord NT] [TransOrd T] [TransOrd NT] [LawfulEqOrd T] [LawfulEqOrd NT]

/-- C115: collecting production states keeps one state of each production: with current versions of std the
last one collected, with earlier ones, as when `add`ing them one after the other, the first. -/
theorem prodStateSet_fromIter (g : Grammar T NT AK AV) (hg : g.Accepted) (addr : NT → Nat → Nat)
    (ha : AddrInj g addr) (l : List (ProdState T NT AK AV)) (hl : ∀ x ∈ l, x.prod ∈ g.prods)
    (x : ProdState T NT AK AV) :
    (x ∈ ProdStateSet.fromIter .bulk addr l ↔
      ∃ l₁ l₂, l = l₁ ++ x :: l₂ ∧ ∀ y ∈ l₂, y.prod ≠ x.prod) ∧
    (x ∈ ProdStateSet.fromIter .inserting addr l ↔
      ∃ l₁ l₂, l = l₁ ++ x :: l₂ ∧ ∀ y ∈ l₁, y.prod ≠ x.prod) ∧
    ProdStateSet.fromIter .inserting addr l = l.foldl (ProdStateSet.add addr) ProdStateSet.newEmpty ∧
    ∀ std, ProdStateSet.Obtained addr (ProdStateSet.fromIter std addr l) := by
  have hc : ∀ x ∈ l, ∀ y ∈ l, ProdState.cmp addr x y ≠ .eq ↔ y.prod ≠ x.prod := fun x hx y hy => by
    unfold ProdState.cmp
    rw [ne_eq, prodCmp_eq hg.valid.toWF ha (hl x hx) (hl y hy), eq_comm]
  refine ⟨?_, ?_, rfl, fun std => .collect l (collect_set_spec std)⟩
  · rw [ProdStateSet.fromIter, (collect_set_exact l x).2]
    constructor
    · rintro ⟨l₁, l₂, rfl, h⟩
      exact ⟨l₁, l₂, rfl, fun y hy => (hc x (by simp) y (by simp [hy])).1 (h y hy)⟩
    · rintro ⟨l₁, l₂, rfl, h⟩
      exact ⟨l₁, l₂, rfl, fun y hy => (hc x (by simp) y (by simp [hy])).2 (h y hy)⟩
  · rw [ProdStateSet.fromIter, (collect_set_exact l x).1]
    constructor
    · rintro ⟨l₁, l₂, rfl, h⟩
      exact ⟨l₁, l₂, rfl, fun y hy => (hc x (by simp) y (by simp [hy])).1 (h y hy)⟩
    · rintro ⟨l₁, l₂, rfl, h⟩
      exact ⟨l₁, l₂, rfl, fun y hy => (hc x (by simp) y (by simp [hy])).2 (h y hy)⟩

/-- So collecting states and adding them one by one can give sets that show different things: of `A → . a`
and `A → a .`, collecting keeps the complete state and adding the other. -/
theorem prodStateSet_fromIter_differs :
    let p : Prod Nat Nat Nat Unit := ⟨0, 0, ⟨0, (), [⟨none, .term 1⟩]⟩⟩
    let l : List (ProdState Nat Nat Nat Unit) := [⟨p, 0⟩, ⟨p, 1⟩]
    ProdStateSet.complete (ProdStateSet.fromIter .bulk exampleAddr l) = [⟨p, 1⟩] ∧
    ProdStateSet.complete (l.foldl (ProdStateSet.add exampleAddr) ProdStateSet.newEmpty) = [] := by
  decide

/-- The hypotheses of `prodStateSet_fromIter` hold of two states of each production of a grammar, of which
the current std keeps the later one and `add` the earlier one. -/
example : nullExample.Accepted ∧ AddrInj nullExample exampleAddr ∧
    (∀ x ∈ nullExample.prods.map ProdState.fromStart ++ nullExample.prods.map (ProdState.mk · 1),
      x.prod ∈ nullExample.prods) ∧
    (ProdStateSet.fromIter .bulk exampleAddr
      (nullExample.prods.map ProdState.fromStart ++ nullExample.prods.map (ProdState.mk · 1))).all
        (·.index == 1) ∧
    (ProdStateSet.fromIter .inserting exampleAddr
      (nullExample.prods.map ProdState.fromStart ++ nullExample.prods.map (ProdState.mk · 1))).all
        (·.index == 0) ∧
    2 ≤ nullExample.prods.length :=
  ⟨nullExample_accepted, exampleAddr_addrInj _, by
    intro x hx
    rcases List.mem_append.1 hx with h | h
    · obtain ⟨p, hp, rfl⟩ := List.mem_map.1 h; exact hp
    · obtain ⟨p, hp, rfl⟩ := List.mem_map.1 h; exact hp, by decide, by decide, by decide⟩
end
end Bongo
