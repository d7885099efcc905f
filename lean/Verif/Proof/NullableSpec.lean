import Verif.Proof.Nullable
/-! The result of the nullable pass. -/
set_option linter.unusedSectionVars false
namespace Bongo
open Std
variable {T NT AK AV : Type} [Ord NT] [TransOrd NT] [LawfulEqOrd NT]
variable {g : Grammar T NT AK AV} {addr : NT → Nat → Nat}

theorem mem_namedNonterms {es : List (ProdElement T NT)} {n : Name} {B : NT}
    (h : (n, B) ∈ namedNonterms es) : Elem.nonterm B ∈ es.map (·.element) := by
  unfold namedNonterms at h
  obtain ⟨e, he, h2⟩ := List.mem_filterMap.1 h
  obtain ⟨id, el⟩ := e
  cases id <;> cases el <;> simp at h2
  obtain ⟨rfl, rfl⟩ := h2
  exact List.mem_map.2 ⟨_, he, rfl⟩

/-- `p` is a production of `A` deriving the empty word. -/
def NullProd (g : Grammar T NT AK AV) (A : NT) (p : Prod T NT AK AV) : Prop :=
  p ∈ g.prods ∧ p.head = A ∧ g.cfg.Yields p.elements []

/-- Every nonterminal has at most one nullable production. -/
def NullUnique (g : Grammar T NT AK AV) : Prop :=
  ∀ A p q, NullProd g A p → NullProd g A q → p = q

theorem null_iff_nullProd (hw : g.WF) {A : NT} : g.cfg.Null A ↔ ∃ p, NullProd g A p := by
  rw [Cfg.null_iff, Cfg.generates_iff]
  constructor
  · rintro ⟨β, h1, h2⟩
    obtain ⟨p, hp, rfl, rfl⟩ := (Grammar.cfg_prod_iff hw).1 h1
    exact ⟨p, hp, rfl, h2⟩
  · rintro ⟨p, hp, rfl, hy⟩
    exact ⟨p.elements, (Grammar.cfg_prod_iff hw).2 ⟨p, hp, rfl, rfl⟩, hy⟩

theorem innerNullables_of_ne_oof (hw : g.WF) (ha : AddrInj g addr) {fuel : Nat}
    (hf : innerCalculateNullables fuel addr g ≠ .oof) :
    ∃ m, innerCalculateNullables fuel addr g = .ok m ∧ NullInv addr g m ∧
      (∀ A, BMap.contains compare m A = true ↔ g.cfg.Null A) ∧
      ∀ p ∈ g.prods, NullFact m p ↔ g.cfg.Yields p.elements [] := by
  have := innerNullables_spec hw ha (fuel := max fuel (g.prods.length + 1)) (by omega)
  rwa [show innerCalculateNullables (max fuel (g.prods.length + 1)) addr g =
    innerCalculateNullables fuel addr g from changeLoop_mono (by omega) hf] at this

theorem calculateNullables_spec_of (hw : g.WF) (ha : AddrInj g addr) {fuel : Nat}
    (hin : innerCalculateNullables fuel addr g ≠ .oof) {hs : List NT}
    (hhs : ∀ p ∈ g.prods, p.head ∈ hs) (hf : hs.length < fuel) :
    (NullUnique g ∧ ∃ info, calculateNullables fuel addr g = .ok (.ok info) ∧
      BMap.Sorted compare info.nontermInfo ∧
      (∀ A, BMap.get? compare info.nontermInfo A ≠ none ↔ g.cfg.Null A) ∧
      ∀ A t, BMap.get? compare info.nontermInfo A = some t → ∃ p, NullProd g A p ∧
        NodeFor (BMap.get? compare info.nontermInfo) p t) ∨
    (¬ NullUnique g ∧ calculateNullables fuel addr g = .ok (.error .ambiguity)) := by
  obtain ⟨m, hm, hinv, hkeys, hfacts⟩ := innerNullables_of_ne_oof hw ha hin
  have hval : ∀ s ∈ BMap.values m, ∃ A, BMap.get? compare m A = some s := by
    intro s hs
    obtain ⟨⟨A, s'⟩, h1, rfl⟩ := List.mem_map.1 hs
    exact ⟨A, (BMap.mem_iff_get? hinv.sorted A s').1 h1⟩
  have hval2 : ∀ A s, BMap.get? compare m A = some s → s ∈ BMap.values m := by
    intro A s h
    exact List.mem_map.2 ⟨_, (BMap.mem_iff_get? hinv.sorted A s).2 h, rfl⟩
  have hgetnull : ∀ A, BMap.get? compare m A ≠ none ↔ g.cfg.Null A := by
    intro A
    rw [← hkeys A]; unfold BMap.contains
    cases BMap.get? compare m A <;> simp
  have hnp : ∀ A p, NullProd g A p → ∃ s, BMap.get? compare m A = some s ∧ p ∈ s := by
    rintro A p ⟨h1, rfl, h3⟩
    exact (hfacts p h1).2 h3
  unfold calculateNullables
  simp only [hm]
  rcases nullableSanity_spec (l := BMap.values m) (fun s hs => by
      obtain ⟨A, hA⟩ := hval s hs; exact hinv.ne A s hA) with ⟨h1, h2⟩ | ⟨h1, s, h2, h3⟩
  · left
    have huniq : NullUnique g := by
      intro A p q hp hq
      obtain ⟨s, hs, hps⟩ := hnp A p hp
      obtain ⟨s', hs', hqs⟩ := hnp A q hq
      rw [hs] at hs'; cases hs'
      obtain ⟨x, rfl⟩ := List.length_eq_one_iff.1 (h2 s (hval2 A s hs))
      simp at hps hqs
      rw [hps, hqs]
    refine ⟨huniq, ?_⟩
    simp only [h1]
    obtain ⟨am, ham, hget⟩ := buildActionMap_spec (rest := m) (acc := [])
      (fun A s h => h2 s (List.mem_map.2 ⟨_, h, rfl⟩)) hinv.sorted
    simp only [ham]
    have hamp : ∀ A p, BMap.get? compare am A = some p → NullProd g A p := by
      intro A p h
      rw [hget] at h
      cases hA : BMap.get? compare m A with
      | none => simp [hA] at h
      | some s =>
        simp only [hA] at h
        have : p ∈ s := List.mem_of_head? h
        exact hinv.sub A s hA p this
    have hamnull : ∀ A, BMap.get? compare am A ≠ none ↔ g.cfg.Null A := by
      intro A
      rw [← hgetnull, hget]
      cases hA : BMap.get? compare m A with
      | none => simp
      | some s =>
        cases s with
        | nil => exact absurd rfl (hinv.ne A [] hA)
        | cons p s => simp
    have hks : BSet.Sorted compare (BSet.ofList compare (BMap.keys m)) := BSet.sorted_ofList _
    have hkm : ∀ A, A ∈ BSet.ofList compare (BMap.keys m) ↔ BMap.get? compare am A ≠ none := by
      intro A
      rw [BSet.mem_ofList, mem_keys_iff, hgetnull, hamnull]
    have hlen : (BSet.ofList compare (BMap.keys m)).length ≤ hs.length :=
      nodup_subset_length (l := BSet.ofList compare (BMap.keys m))
        (U := hs) (BSet.sorted_nodup hks) (by
          intro A hA
          rw [hkm, hamnull, null_iff_nullProd hw] at hA
          obtain ⟨p, hp, rfl, -⟩ := hA
          exact hhs p hp)
    obtain ⟨infos, k1, k2, k3⟩ := nullTreeLoop_spec (am := am)
      (remaining := BSet.ofList compare (BMap.keys m)) (infos := []) (by
        intro R A hR hA
        have hnull := (hamnull A).1 (hR A hA)
        induction hnull with
        | intro A Bs hp hBs ih =>
          cases hp' : BMap.get? compare am A with
          | none => exact absurd hp' (hR A hA)
          | some p =>
            obtain ⟨q, hq, hqh, hqe⟩ := (Grammar.cfg_prod_iff hw).1 hp
            have hqn : NullProd g A q := ⟨hq, hqh, by
              rw [hqe, Cfg.yields_nil_word_iff]
              intro e he
              obtain ⟨B, hB, rfl⟩ := List.mem_map.1 he
              exact ⟨B, rfl, hBs B hB⟩⟩
            have hpq : p = q := huniq A p q (hamp A p hp') hqn
            have hmemB : ∀ nB ∈ namedNonterms p.prodElements, nB.2 ∈ Bs := by
              rintro ⟨n, B⟩ h
              have h1 := mem_namedNonterms h
              have h2 : Elem.nonterm B ∈ q.elements := by rw [← hpq]; exact h1
              rw [hqe] at h2
              obtain ⟨B', hB', hB''⟩ := List.mem_map.1 h2
              cases hB''; exact hB'
            by_cases hex : ∃ nB ∈ namedNonterms p.prodElements, R nB.2
            · obtain ⟨nB, h1, h2⟩ := hex
              exact ih nB.2 (hmemB nB h1) h2
            · refine ⟨A, p, hA, hp', ?_⟩
              intro nB hnB
              exact ⟨(hamnull nB.2).2 (hBs _ (hmemB nB hnB)), fun h => hex ⟨nB, hnB, h⟩⟩)
      ⟨BMap.sorted_nil, by simp⟩ hks (by intro A; rw [hkm]; simp) (by simp) (fuel := fuel)
      (by omega)
    simp only [k1]
    refine ⟨_, rfl, k2.sorted, fun A => ?_, ?_⟩
    · show BMap.get? compare infos A ≠ none ↔ _
      rw [k3, hamnull]
    · intro A t ht
      obtain ⟨p, hp, hn⟩ := k2.ok A t ht
      exact ⟨p, hamp A p hp, hn⟩
  · right
    simp only [h1]
    refine ⟨?_, trivial⟩
    intro hu
    obtain ⟨A, hA⟩ := hval s h2
    have hss := hinv.setSorted A s hA
    cases s with
    | nil => simp at h3
    | cons p s =>
      cases s with
      | nil => simp at h3
      | cons q s =>
        have := hu A p q (hinv.sub A _ hA p (by simp)) (hinv.sub A _ hA q (by simp))
        subst this
        have := (List.pairwise_cons.1 hss).1 p (by simp)
        simp [cmp_self] at this

theorem calculateNullables_spec (hw : g.WF) (ha : AddrInj g addr) {fuel : Nat}
    (hf : g.prods.length < fuel) :
    (NullUnique g ∧ ∃ info, calculateNullables fuel addr g = .ok (.ok info) ∧
      BMap.Sorted compare info.nontermInfo ∧
      (∀ A, BMap.get? compare info.nontermInfo A ≠ none ↔ g.cfg.Null A) ∧
      ∀ A t, BMap.get? compare info.nontermInfo A = some t → ∃ p, NullProd g A p ∧
        NodeFor (BMap.get? compare info.nontermInfo) p t) ∨
    (¬ NullUnique g ∧ calculateNullables fuel addr g = .ok (.error .ambiguity)) := by
  obtain ⟨m, hm, -⟩ := innerNullables_spec hw ha hf
  exact calculateNullables_spec_of hw ha (by rw [hm]; simp) (hs := g.prods.map (·.head))
    (fun p hp => List.mem_map.2 ⟨p, hp, rfl⟩) (by simpa using hf)

/-! ### Empty trees -/
section
variable {L : Type} {kind : L → T}

/-- A tree with no leaves has a nullable production at its root. -/
theorem nullProd_of_tree (hw : g.WF) {p : Prod T NT AK AV} {cs : List (DTree L (Prod T NT AK AV))}
    (hp : p ∈ g.prods) (hf : IsForest g kind p.elements cs) (hy : DTree.yields cs = []) :
    NullProd g p.head p := by
  have := hf.yields hw
  rw [hy] at this
  exact ⟨hp, rfl, this⟩

mutual
theorem emptyTree_unique (hw : g.WF) (hu : NullUnique g) {e : Elem T NT}
    (t1 t2 : DTree L (Prod T NT AK AV)) (h1 : IsTree g kind e t1) (h2 : IsTree g kind e t2)
    (y1 : t1.yield = []) (y2 : t2.yield = []) : t1 = t2 := by
  cases h1 with
  | leaf l => simp [DTree.yield] at y1
  | node p cs hp hf =>
    rw [DTree.yield] at y1
    generalize he : Elem.nonterm p.head = e at h2
    cases h2 with
    | leaf l => cases he
    | node q ds hq hg =>
      rw [DTree.yield] at y2
      have hpq : p = q := by
        have a := nullProd_of_tree hw hp hf y1
        have b := nullProd_of_tree hw hq hg y2
        injection he with he
        rw [he] at a
        exact hu _ p q a b
      subst hpq
      rw [emptyForest_unique hw hu cs ds hf hg y1 y2]
theorem emptyForest_unique (hw : g.WF) (hu : NullUnique g) {es : List (Elem T NT)}
    (c1 c2 : List (DTree L (Prod T NT AK AV))) (h1 : IsForest g kind es c1)
    (h2 : IsForest g kind es c2)
    (y1 : DTree.yields c1 = []) (y2 : DTree.yields c2 = []) : c1 = c2 := by
  cases h1 with
  | nil => cases h2; rfl
  | cons a1 b1 =>
    cases h2 with
    | cons a2 b2 =>
      simp only [DTree.yields, List.append_eq_nil_iff] at y1 y2
      rw [emptyTree_unique hw hu _ _ a1 a2 y1.1 y2.1, emptyForest_unique hw hu _ _ b1 b2 y1.2 y2.2]
end

theorem emptyTree_of_nullProd (hw : g.WF) {A : NT} {p : Prod T NT AK AV} (h : NullProd g A p) :
    ∃ cs : List (DTree L (Prod T NT AK AV)),
      IsTree g kind (.nonterm A) (.node p cs) ∧ (DTree.node p cs).yield = [] := by
  obtain ⟨hp, rfl, hy⟩ := h
  obtain ⟨cs, h1, h2⟩ := forest_of_yields hw hy ([] : List L) (kind := kind) rfl
  exact ⟨cs, .node p cs hp h1, by rw [DTree.yield]; exact h2⟩
end

/-- Uniqueness of nullable productions is uniqueness of empty derivation trees. -/
theorem nullUnique_iff (hw : g.WF) :
    NullUnique g ↔ ¬ ∃ (A : NT) (t1 t2 : DTree T (Prod T NT AK AV)), t1 ≠ t2 ∧
      IsTree g id (.nonterm A) t1 ∧ IsTree g id (.nonterm A) t2 ∧ t1.yield = [] ∧ t2.yield = [] := by
  constructor
  · rintro hu ⟨A, t1, t2, hne, h1, h2, y1, y2⟩
    exact hne (emptyTree_unique hw hu t1 t2 h1 h2 y1 y2)
  · intro h A p q hp hq
    by_contra hpq
    obtain ⟨cs, h1, y1⟩ := emptyTree_of_nullProd (L := T) (kind := id) hw hp
    obtain ⟨ds, h2, y2⟩ := emptyTree_of_nullProd (L := T) (kind := id) hw hq
    exact h ⟨A, _, _, by intro he; injection he with he; exact hpq he, h1, h2, y1, y2⟩

end Bongo
