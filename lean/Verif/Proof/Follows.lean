import Verif.Proof.Firsts
import Mathlib.Data.List.Chain
/-! FOLLOW sets. -/
set_option linter.unusedSectionVars false
namespace Bongo
open Std
variable {T NT AK AV : Type} [Ord T] [TransOrd T] [LawfulEqOrd T]
  [Ord NT] [TransOrd NT] [LawfulEqOrd NT]

/-- Two adjacent nonterminals, the second without a FIRST entry. -/
def FirstsGap (firsts : Firsts T NT) (es : List (Elem T NT)) : Prop :=
  ∃ u X Y v, es = u ++ .nonterm X :: .nonterm Y :: v ∧ firsts.get Y = none

/-- The operations of the loop over adjacent pairs. -/
def followsPairOps (firsts : Firsts T NT) : List (Elem T NT) → List (CollectOp NT T)
  | .nonterm X :: .term t :: es => .insert X t :: followsPairOps firsts (.term t :: es)
  | .nonterm X :: .nonterm Y :: es =>
    .iter X ((firsts.get Y).getD []) :: followsPairOps firsts (.nonterm Y :: es)
  | .term _ :: e :: es => followsPairOps firsts (e :: es)
  | [_] => []
  | [] => []

theorem firstsGap_cons (firsts : Firsts T NT) (a b : Elem T NT) (es : List (Elem T NT)) :
    FirstsGap firsts (a :: b :: es) ↔
      (∃ X Y, a = .nonterm X ∧ b = .nonterm Y ∧ firsts.get Y = none) ∨
        FirstsGap firsts (b :: es) := by
  constructor
  · rintro ⟨u, X, Y, v, h, hY⟩
    cases u with
    | nil => simp at h; exact Or.inl ⟨X, Y, h.1, h.2.1, hY⟩
    | cons x u => simp at h; exact Or.inr ⟨u, X, Y, v, h.2, hY⟩
  · rintro (⟨X, Y, rfl, rfl, hY⟩ | ⟨u, X, Y, v, h, hY⟩)
    · exact ⟨[], X, Y, es, rfl, hY⟩
    · exact ⟨a :: u, X, Y, v, by rw [h]; rfl, hY⟩

theorem followsVisitPairs_spec (firsts : Firsts T NT) (es : List (Elem T NT)) (m : CollectMap NT T)
    (c : WasChanged) :
    (¬ FirstsGap firsts es → followsVisitPairs firsts es m c =
      .ok ((changeIter (followsPairOps firsts es) CollectOp.apply m).1,
        c.join (changeIter (followsPairOps firsts es) CollectOp.apply m).2)) ∧
    (FirstsGap firsts es → followsVisitPairs firsts es m c = .panic .noFirsts) := by
  induction es generalizing m c with
  | nil =>
    refine ⟨fun _ => ?_, ?_⟩
    · simp [followsVisitPairs, followsPairOps, changeIter, WasChanged.join_unchanged]
    · rintro ⟨u, X, Y, v, h, -⟩; simp at h
  | cons a es ih =>
    cases es with
    | nil =>
      refine ⟨fun _ => ?_, ?_⟩
      · cases a <;>
          simp [followsVisitPairs, followsPairOps, changeIter, WasChanged.join_unchanged]
      · rintro ⟨u, X, Y, v, h, -⟩
        have := congrArg List.length h
        simp at this
        omega
    | cons b es =>
      rw [firstsGap_cons]
      cases a with
      | term t =>
        have e1 : followsVisitPairs firsts (.term t :: b :: es) m c =
            followsVisitPairs firsts (b :: es) m c := by cases b <;> rfl
        have e2 : followsPairOps firsts (.term t :: b :: es) = followsPairOps firsts (b :: es) := by
          cases b <;> rfl
        rw [e1, e2]
        simpa using ih m c
      | nonterm X =>
        cases b with
        | term t =>
          have := ih (CollectMap.insert compare compare m X t).1
            (c.join (CollectMap.insert compare compare m X t).2)
          rw [followsVisitPairs, followsPairOps]
          simp only [reduceCtorEq, false_and, and_false, exists_false, false_or, changeIter_cons,
            CollectOp.apply]
          rw [← WasChanged.join_assoc]
          exact this
        | nonterm Y =>
          cases hY : firsts.get Y with
          | none =>
            refine ⟨fun h => absurd (Or.inl ⟨X, Y, rfl, rfl, hY⟩) h, fun _ => ?_⟩
            simp [followsVisitPairs, hY]
          | some s =>
            have := ih (CollectMap.insertIter compare compare m X s).1
              (c.join (CollectMap.insertIter compare compare m X s).2)
            have hno : ¬ ∃ X' Y', Elem.nonterm (T := T) X = .nonterm X' ∧
                Elem.nonterm (T := T) Y = .nonterm Y' ∧ firsts.get Y' = none := by
              rintro ⟨X', Y', -, h, h2⟩
              cases h; rw [hY] at h2; cases h2
            rw [followsVisitPairs, followsPairOps]
            simp only [hno, false_or, changeIter_cons, CollectOp.apply, hY, Option.getD_some]
            rw [← WasChanged.join_assoc]
            exact this

/-- The operations of one visit. -/
def followsOps (firsts : Firsts T NT) (head : NT) (es : List (Elem T NT)) : List (CollectOp NT T) :=
  followsPairOps firsts es ++
    match es.getLast? with
    | some (.nonterm last) => [.fromKey last head]
    | _ => []

theorem followsVisit_spec (firsts : Firsts T NT) (m : CollectMap NT T) (p : Prod T NT AK AV) :
    (¬ FirstsGap firsts p.elements → followsVisit firsts m p =
      .ok (changeIter (followsOps firsts p.head p.elements) CollectOp.apply m)) ∧
    (FirstsGap firsts p.elements → followsVisit firsts m p = .panic .noFirsts) := by
  obtain ⟨h1, h2⟩ := followsVisitPairs_spec firsts p.elements m .unchanged
  constructor
  · intro hg
    unfold followsVisit followsOps
    rw [h1 hg]
    simp only [WasChanged.unchanged_join]
    split
    · rename_i last hl
      simp only [hl]
      rw [changeIter_append]
      simp [changeIter, CollectOp.apply, WasChanged.unchanged_join]
    · rename_i hl
      split
      · rename_i last hl'; exact absurd hl' (hl last)
      · simp
  · intro hg
    unfold followsVisit
    rw [h2 hg]

theorem changeIterM_ok {ι S : Type} {l : List ι} {f : S → ι → Res (S × WasChanged)}
    {f' : S → ι → S × WasChanged} (h : ∀ i ∈ l, ∀ s, f s i = .ok (f' s i)) (s : S)
    (c : WasChanged) :
    changeIterM l f s c = .ok ((changeIter l f' s).1, c.join (changeIter l f' s).2) := by
  induction l generalizing s c with
  | nil => simp [changeIterM, changeIter, WasChanged.join_unchanged]
  | cons a l ih =>
    rw [changeIterM, h a (by simp), changeIter_cons]
    simp only
    rw [ih (fun i hi => h i (by simp [hi])), WasChanged.join_assoc]

theorem changeIterM_panic {ι S : Type} {l : List ι} {f : S → ι → Res (S × WasChanged)} {w : Panic}
    (h : ∀ i ∈ l, ∀ s, (∃ r, f s i = .ok r) ∨ f s i = .panic w)
    (hp : ∃ i ∈ l, ∀ s, f s i = .panic w) (s : S)
    (c : WasChanged) : changeIterM l f s c = .panic w := by
  induction l generalizing s c with
  | nil => simp at hp
  | cons a l ih =>
    rw [changeIterM]
    rcases h a (by simp) s with ⟨r, hr⟩ | hr
    · rw [hr]
      simp only
      apply ih (fun i hi => h i (by simp [hi]))
      obtain ⟨i, hi, hp⟩ := hp
      rcases List.mem_cons.1 hi with rfl | hi
      · rw [hp s] at hr; cases hr
      · exact ⟨i, hi, hp⟩
    · rw [hr]

def allFollowsOps (firsts : Firsts T NT) (g : Grammar T NT AK AV) : List (CollectOp NT T) :=
  g.prods.flatMap fun p => followsOps firsts p.head p.elements

theorem followsRun_ok {g : Grammar T NT AK AV} {firsts : Firsts T NT}
    (hg : ∀ p ∈ g.prods, ¬ FirstsGap firsts p.elements) {fuel : Nat}
    (hf : CollectOp.bound (allFollowsOps firsts g) ≤ fuel) :
    ∃ f, Follows.runPass fuel g (.ok firsts) = .ok (.ok f) ∧
      CollectMap.WF compare compare f.map ∧
      (∀ A t, CollectMap.Has compare f.map A t ↔ Coll (allFollowsOps firsts g) A t) := by
  obtain ⟨m, h1, h2, h3, -⟩ := CollectOp.loop (allFollowsOps firsts g) hf
  refine ⟨⟨m⟩, ?_, h2, h3⟩
  show (match changeLoop fuel (fun m => changeIterM g.prods (followsVisit firsts) m) [] with
    | .ok m => _ | .panic w => _ | .oof => _) = _
  have : (fun m => changeIterM g.prods (followsVisit firsts) m) =
      fun m : CollectMap NT T => Res.ok (changeIter (allFollowsOps firsts g) CollectOp.apply m) := by
    funext m
    rw [changeIterM_ok (fun p hp s => (followsVisit_spec firsts s p).1 (hg p hp)),
      WasChanged.unchanged_join]
    unfold allFollowsOps
    rw [changeIter_flatMap]
  rw [this, h1]

theorem followsRun_panic {g : Grammar T NT AK AV} {firsts : Firsts T NT}
    (hg : ∃ p ∈ g.prods, FirstsGap firsts p.elements) {fuel : Nat} (hf : 0 < fuel) :
    Follows.runPass fuel g (.ok firsts) = .panic .noFirsts := by
  show (match changeLoop fuel (fun m => changeIterM g.prods (followsVisit firsts) m) [] with
    | .ok m => _ | .panic w => _ | .oof => _) = _
  obtain ⟨n, rfl⟩ : ∃ n, fuel = n + 1 := ⟨fuel - 1, by omega⟩
  rw [changeLoop, changeIterM_panic (w := .noFirsts)]
  · intro p hp s
    by_cases h : FirstsGap firsts p.elements
    · exact Or.inr ((followsVisit_spec firsts s p).2 h)
    · exact Or.inl ⟨_, (followsVisit_spec firsts s p).1 h⟩
  · obtain ⟨p, hp, h⟩ := hg
    exact ⟨p, hp, fun s => (followsVisit_spec firsts s p).2 h⟩

/-! ### Meaning -/

theorem mem_followsPairOps_insert {firsts : Firsts T NT} {es : List (Elem T NT)} {X : NT} {t : T} :
    CollectOp.insert X t ∈ followsPairOps firsts es ↔
      ∃ u v, es = u ++ .nonterm X :: .term t :: v := by
  induction es with
  | nil => simp [followsPairOps]
  | cons a es ih =>
    have hshift : (∃ u v, es = u ++ .nonterm X :: .term t :: v) →
        ∃ u v, a :: es = u ++ .nonterm X :: .term t :: v := by
      rintro ⟨u, v, rfl⟩; exact ⟨a :: u, v, rfl⟩
    have hback : (∃ u v, a :: es = u ++ .nonterm X :: .term t :: v) →
        (a = .nonterm X ∧ ∃ v, es = .term t :: v) ∨ ∃ u v, es = u ++ .nonterm X :: .term t :: v := by
      rintro ⟨u, v, h⟩
      cases u with
      | nil => simp at h; exact Or.inl ⟨h.1, v, h.2⟩
      | cons x u => simp at h; exact Or.inr ⟨u, v, h.2⟩
    cases es with
    | nil =>
      cases a <;> simp only [followsPairOps, List.not_mem_nil, false_iff] <;>
      · intro h
        rcases hback h with ⟨-, v, h⟩ | ⟨u, v, h⟩ <;> simp at h
    | cons b es =>
      cases a with
      | term t' =>
        have e2 : followsPairOps firsts (.term t' :: b :: es) = followsPairOps firsts (b :: es) := by
          cases b <;> rfl
        rw [e2, ih]
        refine ⟨hshift, fun h => ?_⟩
        rcases hback h with ⟨h, -⟩ | h
        · cases h
        · exact h
      | nonterm X' =>
        cases b with
        | term t' =>
          simp only [followsPairOps, List.mem_cons, ih, CollectOp.insert.injEq]
          constructor
          · rintro (⟨rfl, rfl⟩ | h)
            · exact ⟨[], es, rfl⟩
            · exact hshift h
          · intro h
            rcases hback h with ⟨h, v, h2⟩ | h
            · cases h; simp at h2; exact Or.inl ⟨rfl, h2.1.symm⟩
            · exact Or.inr h
        | nonterm Y' =>
          simp only [followsPairOps, List.mem_cons, ih, reduceCtorEq, false_or]
          refine ⟨hshift, fun h => ?_⟩
          rcases hback h with ⟨h, v, h2⟩ | h
          · simp at h2
          · exact h

theorem mem_followsPairOps_iter {firsts : Firsts T NT} {es : List (Elem T NT)} {X : NT} {l} :
    CollectOp.iter X l ∈ followsPairOps firsts es ↔
      ∃ u Y v, es = u ++ .nonterm X :: .nonterm Y :: v ∧ l = (firsts.get Y).getD [] := by
  induction es with
  | nil => simp [followsPairOps]
  | cons a es ih =>
    have hshift : (∃ u Y v, es = u ++ .nonterm X :: .nonterm Y :: v ∧ l = (firsts.get Y).getD []) →
        ∃ u Y v, a :: es = u ++ .nonterm X :: .nonterm Y :: v ∧ l = (firsts.get Y).getD [] := by
      rintro ⟨u, Y, v, rfl, h⟩; exact ⟨a :: u, Y, v, rfl, h⟩
    have hback : (∃ u Y v, a :: es = u ++ .nonterm X :: .nonterm Y :: v ∧
          l = (firsts.get Y).getD []) →
        (a = .nonterm X ∧ ∃ Y v, es = .nonterm Y :: v ∧ l = (firsts.get Y).getD []) ∨
          ∃ u Y v, es = u ++ .nonterm X :: .nonterm Y :: v ∧ l = (firsts.get Y).getD [] := by
      rintro ⟨u, Y, v, h, hl⟩
      cases u with
      | nil => simp at h; exact Or.inl ⟨h.1, Y, v, h.2, hl⟩
      | cons x u => simp at h; exact Or.inr ⟨u, Y, v, h.2, hl⟩
    cases es with
    | nil =>
      cases a <;> simp only [followsPairOps, List.not_mem_nil, false_iff] <;>
      · intro h
        rcases hback h with ⟨-, Y, v, h, -⟩ | ⟨u, Y, v, h, -⟩ <;> simp at h
    | cons b es =>
      cases a with
      | term t' =>
        have e2 : followsPairOps firsts (.term t' :: b :: es) = followsPairOps firsts (b :: es) := by
          cases b <;> rfl
        rw [e2, ih]
        refine ⟨hshift, fun h => ?_⟩
        rcases hback h with ⟨h, -⟩ | h
        · cases h
        · exact h
      | nonterm X' =>
        cases b with
        | term t' =>
          simp only [followsPairOps, List.mem_cons, ih, reduceCtorEq, false_or]
          refine ⟨hshift, fun h => ?_⟩
          rcases hback h with ⟨h, Y, v, h2, -⟩ | h
          · simp at h2
          · exact h
        | nonterm Y' =>
          simp only [followsPairOps, List.mem_cons, ih, CollectOp.iter.injEq]
          constructor
          · rintro (⟨rfl, rfl⟩ | h)
            · exact ⟨[], Y', es, rfl, rfl⟩
            · exact hshift h
          · intro h
            rcases hback h with ⟨h, Y, v, h2, h3⟩ | h
            · cases h; simp at h2; exact Or.inl ⟨rfl, by rw [h2.1]; exact h3⟩
            · exact Or.inr h

theorem mem_followsPairOps_fromKey {firsts : Firsts T NT} {es : List (Elem T NT)} {X Y : NT} :
    CollectOp.fromKey X Y ∉ followsPairOps firsts es := by
  induction es with
  | nil => simp [followsPairOps]
  | cons a es ih =>
    cases es with
    | nil => cases a <;> simp [followsPairOps]
    | cons b es => cases a <;> cases b <;> simpa [followsPairOps] using ih

theorem mem_followsOps {firsts : Firsts T NT} {head : NT} {es : List (Elem T NT)}
    {op : CollectOp NT T} : op ∈ followsOps firsts head es ↔
      (∃ u X t v, es = u ++ .nonterm X :: .term t :: v ∧ op = .insert X t) ∨
      (∃ u X Y v, es = u ++ .nonterm X :: .nonterm Y :: v ∧ op = .iter X ((firsts.get Y).getD [])) ∨
      (∃ u X, es = u ++ [.nonterm X] ∧ op = .fromKey X head) := by
  unfold followsOps
  rw [List.mem_append]
  have hlast : (op ∈ (match es.getLast? with
      | some (.nonterm last) => [CollectOp.fromKey last head]
      | _ => [])) ↔ ∃ u X, es = u ++ [.nonterm X] ∧ op = .fromKey X head := by
    split
    · rename_i last hl
      obtain ⟨u, rfl⟩ := List.getLast?_eq_some_iff.1 hl
      constructor
      · intro h; exact ⟨u, last, rfl, by simpa using h⟩
      · rintro ⟨u', X, h, rfl⟩
        have := List.append_inj' h rfl
        simp at this
        simp [this.2]
    · rename_i hl
      simp only [List.not_mem_nil, false_iff]
      rintro ⟨u, X, rfl, -⟩
      exact hl X (by simp)
  rw [hlast]
  cases op with
  | insert X t =>
    rw [mem_followsPairOps_insert]
    constructor
    · rintro (⟨u, v, rfl⟩ | ⟨u, X, rfl, h⟩)
      · exact Or.inl ⟨u, X, t, v, rfl, rfl⟩
      · cases h
    · rintro (⟨u, X, t, v, rfl, h⟩ | ⟨u, X, Y, v, rfl, h⟩ | ⟨u, X, rfl, h⟩)
      · cases h; exact Or.inl ⟨u, v, rfl⟩
      · cases h
      · cases h
  | iter X l =>
    rw [mem_followsPairOps_iter]
    constructor
    · rintro (⟨u, Y, v, rfl, rfl⟩ | ⟨u, X, rfl, h⟩)
      · exact Or.inr (Or.inl ⟨u, X, Y, v, rfl, rfl⟩)
      · cases h
    · rintro (⟨u, X, t, v, rfl, h⟩ | ⟨u, X, Y, v, rfl, h⟩ | ⟨u, X, rfl, h⟩)
      · cases h
      · cases h; exact Or.inl ⟨u, Y, v, rfl, rfl⟩
      · cases h
  | fromKey X Y =>
    constructor
    · rintro (h | h)
      · exact absurd h mem_followsPairOps_fromKey
      · exact Or.inr (Or.inr h)
    · rintro (⟨u, X, t, v, rfl, h⟩ | ⟨u, X, Y, v, rfl, h⟩ | h)
      · cases h
      · cases h
      · exact Or.inr h

theorem mem_allFollowsOps {firsts : Firsts T NT} {g : Grammar T NT AK AV} {op : CollectOp NT T} :
    op ∈ allFollowsOps firsts g ↔ ∃ p ∈ g.prods,
      (∃ u X t v, p.elements = u ++ .nonterm X :: .term t :: v ∧ op = .insert X t) ∨
      (∃ u X Y v, p.elements = u ++ .nonterm X :: .nonterm Y :: v ∧
        op = .iter X ((firsts.get Y).getD [])) ∨
      (∃ u X, p.elements = u ++ [.nonterm X] ∧ op = .fromKey X p.head) := by
  unfold allFollowsOps
  rw [List.mem_flatMap]
  simp only [mem_followsOps]

/-- The FIRST sets are those of the grammar. -/
def FirstsExact (g : Grammar T NT AK AV) (firsts : Firsts T NT) : Prop :=
  ∀ A t, (∃ s, firsts.get A = some s ∧ t ∈ s) ↔ ∃ γ, g.cfg.Derives [.nonterm A] (.term t :: γ)

section
variable {g : Grammar T NT AK AV} {firsts : Firsts T NT}

theorem mem_getD_firsts (hfe : FirstsExact g firsts) {Y : NT} {t : T} :
    t ∈ (firsts.get Y).getD [] ↔ ∃ γ, g.cfg.Derives [.nonterm Y] (.term t :: γ) := by
  rw [← hfe]
  cases firsts.get Y <;> simp

theorem coll_follows_sound (hw : g.WF) (hfe : FirstsExact g firsts) {A : NT} {t : T}
    (h : Coll (allFollowsOps firsts g) A t) :
    ∃ p ∈ g.prods, ∃ u v, g.cfg.Derives [.nonterm p.head] (u ++ .nonterm A :: .term t :: v) := by
  have hd : ∀ p ∈ g.prods, g.cfg.Derives [.nonterm p.head] p.elements := fun p hp =>
    Cfg.derives_prod (G := g.cfg) ((Grammar.cfg_prod_iff hw).2 ⟨p, hp, rfl, rfl⟩)
  induction h with
  | insert hop =>
    obtain ⟨p, hp, ⟨u, X, t, v, he, h⟩ | ⟨u, X, Y, v, he, h⟩ | ⟨u, X, he, h⟩⟩ :=
      mem_allFollowsOps.1 hop
    · cases h
      exact ⟨p, hp, u, v, by rw [← he]; exact hd p hp⟩
    · cases h
    · cases h
  | iter hop hv =>
    obtain ⟨p, hp, ⟨u, X, t, v, he, h⟩ | ⟨u, X, Y, v, he, h⟩ | ⟨u, X, he, h⟩⟩ :=
      mem_allFollowsOps.1 hop
    · cases h
    · cases h
      obtain ⟨γ, hγ⟩ := (mem_getD_firsts hfe).1 hv
      refine ⟨p, hp, u, γ ++ v, (hd p hp).trans ?_⟩
      rw [he]
      have h1 := Cfg.Derives.append hγ (Relation.ReflTransGen.refl (a := v))
      have h2 := fun X => Cfg.Derives.append (Relation.ReflTransGen.refl (r := g.cfg.Step)
        (a := u ++ [X])) h1
      simpa using h2 (.nonterm _)
    · cases h
  | fromKey hop _ ih =>
    obtain ⟨p, hp, ⟨u, X, t, v, he, h⟩ | ⟨u, X, Y, v, he, h⟩ | ⟨u, X, he, h⟩⟩ :=
      mem_allFollowsOps.1 hop
    · cases h
    · cases h
    · cases h
      obtain ⟨q, hq, u', v', h1⟩ := ih
      refine ⟨q, hq, u' ++ u, v', h1.trans ?_⟩
      have h2 := hd p hp
      rw [he] at h2
      have h3 := fun t => Cfg.Derives.append h2 (Relation.ReflTransGen.refl (a := .term t :: v'))
      have h4 := fun t =>
        Cfg.Derives.append (Relation.ReflTransGen.refl (r := g.cfg.Step) (a := u')) (h3 t)
      simpa using h4 _

/-- The first terminals of one element. -/
def FirstElem (g : Grammar T NT AK AV) (e : Elem T NT) (t : T) : Prop :=
  ∃ γ, g.cfg.Derives [e] (.term t :: γ)

theorem firstElem_term {t t' : T} (h : FirstElem g (.term t') t) : t = t' := by
  obtain ⟨γ, h⟩ := h
  have := Cfg.firstOf_complete (G := g.cfg) (null := g.cfg.Null) (first := fun A t => True)
    (fun _ => Iff.rfl) (fun _ _ _ _ _ => trivial) h
  simpa [Cfg.FirstOf] using this

theorem coll_follows_complete (hw : g.WF) (hfe : FirstsExact g firsts)
    (hnn : ∀ p ∈ g.prods, ∀ u X Y v, p.elements = u ++ .nonterm X :: .nonterm Y :: v →
      ¬ g.cfg.Generates Y []) {B : NT} {α : List (Elem T NT)}
    (h : g.cfg.Derives [.nonterm B] α) : ∀ u X γ, α = u ++ .nonterm X :: γ →
      ∀ t δ, g.cfg.Derives γ (.term t :: δ) → Coll (allFollowsOps firsts g) X t := by
  induction h with
  | refl =>
    intro u X γ he t δ hd
    have : γ = [] := by
      cases u with
      | nil => simp at he; exact he.2
      | cons a u => simp at he
    subst this
    exact absurd (Cfg.derives_nil hd) (by simp)
  | tail _ hstep ih =>
    cases hstep with
    | mk u v C β hp =>
      obtain ⟨p, hp', rfl, rfl⟩ := (Grammar.cfg_prod_iff hw).1 hp
      intro u1 X γ he t δ hd
      rw [List.append_assoc] at he
      rcases List.append_eq_append_iff.1 he with ⟨a, h1, h2⟩ | ⟨a, h1, h2⟩
      · -- the occurrence is in the body or after it
        rcases List.append_eq_append_iff.1 h2 with ⟨b, h3, h4⟩ | ⟨b, h3, h4⟩
        · refine ih (u ++ .nonterm p.head :: b) X γ ?_ t δ hd
          rw [h4]; simp
        · cases b with
          | nil =>
            simp only [List.nil_append] at h4
            exact ih (u ++ [.nonterm p.head]) X γ (by rw [← h4]; simp) t δ hd
          | cons x b =>
            simp only [List.cons_append, List.cons.injEq] at h4
            obtain ⟨rfl, rfl⟩ := h4
            cases b with
            | nil =>
              exact .fromKey (mem_allFollowsOps.2 ⟨p, hp', Or.inr (Or.inr ⟨a, X, h3, rfl⟩)⟩)
                (ih u p.head v rfl t δ (by simpa using hd))
            | cons e b =>
              have hfirst : ¬ g.cfg.Derives [e] [] → FirstElem g e t := by
                intro hne
                obtain ⟨c1, c2, hc, k1, k2⟩ := Cfg.Derives.cons_split (by simpa using hd)
                cases c1 with
                | nil => exact absurd k1 hne
                | cons y c1 =>
                  simp only [List.cons_append, List.cons.injEq] at hc
                  rw [← hc.1] at k1
                  exact ⟨c1, k1⟩
              cases e with
              | term t' =>
                have := firstElem_term (hfirst fun hh => by
                  have := Cfg.derives_term hh; simp at this)
                rw [this]
                exact .insert (mem_allFollowsOps.2 ⟨p, hp', Or.inl ⟨a, X, t', b, h3, rfl⟩⟩)
              | nonterm Y =>
                have hY := hnn p hp' a X Y b h3
                exact .iter (mem_allFollowsOps.2 ⟨p, hp', Or.inr (Or.inl ⟨a, X, Y, b, h3, rfl⟩)⟩)
                  ((mem_getD_firsts hfe).2 (hfirst hY))
      · -- the occurrence is before the body
        cases a with
        | nil =>
          simp only [List.nil_append] at h2
          simp only [List.append_nil] at h1
          subst h1
          -- the body begins with the occurrence, or is empty
          cases hel : p.elements with
          | nil =>
            rw [hel] at h2
            simp only [List.nil_append] at h2
            exact ih (u ++ [.nonterm p.head]) X γ (by rw [← h2]; simp) t δ hd
          | cons x b =>
            rw [hel] at h2
            simp only [List.cons_append, List.cons.injEq] at h2
            obtain ⟨rfl, rfl⟩ := h2
            cases b with
            | nil =>
              exact .fromKey (mem_allFollowsOps.2 ⟨p, hp', Or.inr (Or.inr ⟨[], X, hel, rfl⟩)⟩)
                (ih u p.head v rfl t δ (by simpa using hd))
            | cons e b =>
              have hfirst : ¬ g.cfg.Derives [e] [] → FirstElem g e t := by
                intro hne
                obtain ⟨c1, c2, hc, k1, k2⟩ := Cfg.Derives.cons_split (by simpa using hd)
                cases c1 with
                | nil => exact absurd k1 hne
                | cons y c1 =>
                  simp only [List.cons_append, List.cons.injEq] at hc
                  rw [← hc.1] at k1
                  exact ⟨c1, k1⟩
              cases e with
              | term t' =>
                have := firstElem_term (hfirst fun hh => by
                  have := Cfg.derives_term hh; simp at this)
                rw [this]
                exact .insert (mem_allFollowsOps.2 ⟨p, hp', Or.inl ⟨[], X, t', b, hel, rfl⟩⟩)
              | nonterm Y =>
                have hY := hnn p hp' [] X Y b hel
                exact .iter (mem_allFollowsOps.2 ⟨p, hp', Or.inr (Or.inl ⟨[], X, Y, b, hel, rfl⟩)⟩)
                  ((mem_getD_firsts hfe).2 (hfirst hY))
        | cons x a =>
          simp only [List.cons_append, List.cons.injEq] at h2
          obtain ⟨rfl, rfl⟩ := h2
          refine ih u1 X (a ++ .nonterm p.head :: v) (by rw [h1]; simp) t δ ?_
          refine Cfg.Derives.trans ?_ hd
          have := Cfg.Derives.append (Cfg.Derives.refl (G := g.cfg) a)
            (Cfg.Derives.append (Cfg.derives_prod hp) (Cfg.Derives.refl v))
          simpa using this
end
end Bongo
