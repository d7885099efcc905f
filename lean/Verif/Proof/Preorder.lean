import Verif.Spec.Values
import Verif.Proof.RenameReads
/-!
# Lemmas: values that compare equal
-/
set_option linter.unusedSectionVars false
set_option linter.unusedSimpArgs false
namespace Bongo
open Std
variable {T NT AK AV V : Type}

theorem BMap.get?_congr {K W : Type} {cmp : K → K → Ordering} [TransCmp cmp] (m : BMap K W) {a b : K}
    (h : cmp a b = .eq) : BMap.get? cmp m a = BMap.get? cmp m b := by
  induction m with
  | nil => rfl
  | cons x m ih =>
    obtain ⟨k, v⟩ := x
    simp only [BMap.get?, BMap.entry?] at ih ⊢
    rw [TransCmp.congr_left h]
    cases cmp b k <;> simp [ih]

section
variable [Ord T] [Ord AK] [Ord V] [DecidableEq T] [TransOrd T] [TransOrd AK] [TransOrd V] [LawfulEqOrd T]

theorem Token.like_iff {a b : Token T V} :
    a.like b = true ↔ a.kind = b.kind ∧ compare a.value b.value = .eq := by
  simp [Token.like]

theorem Token.like_refl (a : Token T V) : a.like a = true := Token.like_iff.2 ⟨rfl, ReflCmp.compare_self⟩
theorem Token.like_symm {a b : Token T V} (h : a.like b = true) : b.like a = true := by
  rw [Token.like_iff] at h ⊢
  exact ⟨h.1.symm, OrientedCmp.eq_comm.1 h.2⟩
theorem Token.like_trans {a b c : Token T V} (h : a.like b = true) (h' : b.like c = true) :
    a.like c = true := by
  rw [Token.like_iff] at h h' ⊢
  exact ⟨h.1.trans h'.1, TransCmp.eq_trans h.2 h'.2⟩

theorem Token.like_congr {a b c : Token T V} (h : a.like b = true) : c.like a = c.like b := by
  rw [Bool.eq_iff_iff]
  exact ⟨fun e => Token.like_trans e h, fun e => Token.like_trans e (Token.like_symm h)⟩

theorem leaf_cmp_iff {k k' : T} {v v' : V} :
    NodeContent.cmp (.leaf k v : NodeContent T AK V) (.leaf k' v') = .eq ↔
      k = k' ∧ compare v v' = .eq := by
  rw [NodeContent.cmp_eq]
  simp only [pairCmp, Ordering.then_eq_eq, LawfulEqCmp.compare_eq_iff_eq]

theorem firstLike_congr {given : List (Token T V)} {a b : Token T V} (h : a.like b = true)
    (hm : ∃ x ∈ given, x.like a = true) : firstLike given a = firstLike given b := by
  unfold firstLike
  have e : (given.find? (·.like a)) = given.find? (·.like b) := by
    congr 1
    funext x
    exact Token.like_congr h
  rw [← e]
  obtain ⟨x, hx, hl⟩ := hm
  cases hf : given.find? (·.like a) with
  | none => exact absurd hl (List.find?_eq_none.1 hf x hx)
  | some y => rfl

theorem firstLike_like {given : List (Token T V)} (a : Token T V) : (firstLike given a).like a = true := by
  unfold firstLike
  cases hf : given.find? (·.like a) with
  | none => exact Token.like_refl a
  | some y => exact List.find?_some (p := fun x : Token T V => x.like a) hf

/-- The leaves of the alternatives are the first ones given. -/
structure Keeps (L : List (Token T V)) (a : AltSet T AK V) : Prop where
  back : ∀ c k, BMap.get? NodeContent.cmp a.valueToId c = some k →
    ∃ c', a.idToValue[k]? = some c' ∧ NodeContent.cmp c c' = .eq
  here : ∀ k c, a.idToValue[k]? = some c → BMap.get? NodeContent.cmp a.valueToId c = some k
  first : ∀ (k : Nat) (t : T) (v : V), a.idToValue[k]? = some (NodeContent.leaf t v) → L.find? (·.like ⟨t, v⟩) = some ⟨t, v⟩
  all : ∀ x ∈ L, ∃ k, BMap.get? NodeContent.cmp a.valueToId (.leaf x.kind x.value) = some k

variable {L : List (Token T V)} {a : AltSet T AK V}

theorem keeps_new : Keeps [] (AltSet.new : AltSet T AK V) where
  back := by intro c k h; cases h
  here := by intro k c h; simp [AltSet.new] at h
  first := by intro k t v h; simp [AltSet.new] at h
  all := by intro x hx; cases hx

theorem Keeps.add_aux (h : Keeps L a) {c : NodeContent T AK V} (hn : BMap.get? NodeContent.cmp a.valueToId c = none) :
    (∀ c₁ k, BMap.get? NodeContent.cmp (a.add c).1.valueToId c₁ = some k →
      ∃ c', (a.add c).1.idToValue[k]? = some c' ∧ NodeContent.cmp c₁ c' = .eq) ∧
    (∀ (k : Nat) c₁, (a.add c).1.idToValue[k]? = some c₁ →
      BMap.get? NodeContent.cmp (a.add c).1.valueToId c₁ = some k) ∧
    (∀ (k : Nat) c₁, (a.add c).1.idToValue[k]? = some c₁ → a.idToValue[k]? = some c₁ ∨ c₁ = c) ∧
    (∀ c₁ k, BMap.get? NodeContent.cmp a.valueToId c₁ = some k →
      BMap.get? NodeContent.cmp (a.add c).1.valueToId c₁ = some k) ∧
    BMap.get? NodeContent.cmp (a.add c).1.valueToId c = some a.idToValue.length := by
  have hne : ∀ c₁ k, BMap.get? NodeContent.cmp a.valueToId c₁ = some k → NodeContent.cmp c₁ c ≠ .eq := by
    intro c₁ k h1 he
    rw [BMap.get?_congr _ he, hn] at h1
    cases h1
  simp only [AltSet.add, hn]
  refine ⟨?_, ?_, ?_, ?_, ?_⟩
  · intro c₁ k
    rw [BMap.get?_insert]
    split
    · rename_i he
      intro hk
      cases hk
      exact ⟨c, by simp, he⟩
    · intro hk
      obtain ⟨c', h1, h2⟩ := h.back _ _ hk
      exact ⟨c', by rw [List.getElem?_append_left (List.getElem?_eq_some_iff.1 h1).1]; exact h1, h2⟩
  · intro k c₁ hk
    rw [BMap.get?_insert]
    rw [List.getElem?_append] at hk
    split at hk
    · have := h.here _ _ hk
      rw [if_neg (hne _ _ this)]; exact this
    · have hk' := (List.getElem?_eq_some_iff.1 hk).1
      simp only [List.length_cons, List.length_nil] at hk'
      have e : k - a.idToValue.length = 0 := by omega
      rw [e] at hk
      simp only [List.getElem?_cons_zero, Option.some.injEq] at hk
      subst hk
      rw [if_pos ReflCmp.compare_self]
      congr 1
      omega
  · intro k c₁ hk
    rw [List.getElem?_append] at hk
    split at hk
    · exact .inl hk
    · have hk' := (List.getElem?_eq_some_iff.1 hk).1
      simp only [List.length_cons, List.length_nil] at hk'
      have e : k - a.idToValue.length = 0 := by omega
      rw [e] at hk
      simp only [List.getElem?_cons_zero, Option.some.injEq] at hk
      exact .inr hk.symm
  · intro c₁ k hk
    rw [BMap.get?_insert, if_neg (hne _ _ hk)]; exact hk
  · rw [BMap.get?_insert, if_pos ReflCmp.compare_self]

theorem Keeps.branch (h : Keeps L a) (ak : AK) (ns : List Nat) : Keeps L (a.add (.branch ak ns)).1 := by
  cases hn : BMap.get? NodeContent.cmp a.valueToId (.branch ak ns : NodeContent T AK V) with
  | some k => simp only [AltSet.add, hn]; exact h
  | none =>
    obtain ⟨h1, h2, h3, h4, -⟩ := h.add_aux hn
    refine ⟨h1, h2, ?_, ?_⟩
    · intro k t v hk
      rcases h3 _ _ hk with hk | hk
      · exact h.first _ _ _ hk
      · cases hk
    · intro x hx
      obtain ⟨k, hk⟩ := h.all x hx
      exact ⟨k, h4 _ _ hk⟩

theorem Keeps.leaf_old (h : Keeps L a) {tok : Token T V} (hm : tok ∈ L) :
    (a.add (.leaf tok.kind tok.value)).1 = a := by
  obtain ⟨k, hk⟩ := h.all tok hm
  simp only [AltSet.add, hk]

theorem Keeps.leaf (h : Keeps L a) (tok : Token T V) :
    Keeps (L ++ [tok]) (a.add (.leaf tok.kind tok.value)).1 := by
  cases hn : BMap.get? NodeContent.cmp a.valueToId (.leaf tok.kind tok.value : NodeContent T AK V) with
  | some k =>
    simp only [AltSet.add, hn]
    refine ⟨h.back, h.here, ?_, ?_⟩
    · intro k t v hk
      rw [List.find?_append, h.first _ _ _ hk]; rfl
    · intro x hx
      rcases List.mem_append.1 hx with hx | hx
      · exact h.all x hx
      · rw [List.mem_singleton.1 hx]; exact ⟨k, hn⟩
  | none =>
    obtain ⟨h1, h2, h3, h4, h5⟩ := h.add_aux hn
    refine ⟨h1, h2, ?_, ?_⟩
    · intro k t v hk
      rcases h3 _ _ hk with hk | hk
      · rw [List.find?_append, h.first _ _ _ hk]; rfl
      · cases hk
        have : L.find? (·.like tok) = none := by
          rw [List.find?_eq_none]
          intro x hx hl
          obtain ⟨k, hk⟩ := h.all x hx
          rw [BMap.get?_congr _ (leaf_cmp_iff.2 (Token.like_iff.1 hl)), hn] at hk
          cases hk
        show (L ++ [tok]).find? (·.like tok) = some tok
        simp [List.find?_append, this, Token.like_refl]
    · intro x hx
      rcases List.mem_append.1 hx with hx | hx
      · obtain ⟨k, hk⟩ := h.all x hx
        exact ⟨k, h4 _ _ hk⟩
      · rw [List.mem_singleton.1 hx]; exact ⟨_, h5⟩

/-! ## Calls -/
variable {i i' : Inner T AK V}

omit [DecidableEq T] [LawfulEqOrd T] in
theorem addNodeAlt_alts {n m : Nat} {c : WasChanged} (h : i.addNodeAlt n m = .ok (i', c)) :
    i'.alternatives = i.alternatives := by
  unfold Inner.addNodeAlt at h
  cases hn : i.getNode n with
  | ok s => rw [hn] at h; cases h; rfl
  | panic p => rw [hn] at h; cases h
  | oof => rw [hn] at h; cases h

omit [DecidableEq T] [LawfulEqOrd T] in
theorem changeIterM_alts {ι : Type} {f : Inner T AK V → ι → Res (Inner T AK V × WasChanged)}
    (hf : ∀ i i' x c, f i x = .ok (i', c) → i'.alternatives = i.alternatives) (l : List ι) :
    ∀ {i i' : Inner T AK V} {acc c : WasChanged}, changeIterM l f i acc = .ok (i', c) →
      i'.alternatives = i.alternatives := by
  induction l with
  | nil => intro i i' acc c h; cases h; rfl
  | cons x l ih =>
    intro i i' acc c h
    rw [changeIterM] at h
    cases hx : f i x with
    | ok r =>
      rw [hx] at h
      rw [ih h, hf _ _ _ _ hx]
    | panic p => rw [hx] at h; cases h
    | oof => rw [hx] at h; cases h

omit [DecidableEq T] [LawfulEqOrd T] in
theorem addAll_alts {n m : Nat} {c : WasChanged} (h : i.addAll n m = .ok (i', c)) :
    i'.alternatives = i.alternatives := by
  unfold Inner.addAll at h
  cases hn : i.getNode m with
  | ok s => rw [hn] at h; exact changeIterM_alts (fun _ _ _ _ h => addNodeAlt_alts h) s h
  | panic p => rw [hn] at h; cases h
  | oof => rw [hn] at h; cases h

theorem history_keeps {log : TreeLog T AK V} {w : World T AK V} {held : List Handle}
    (h : History log w held) : ∀ t, Keeps (log.leavesOn t) (w t).alternatives := by
  induction h with
  | start => intro t; exact keeps_new
  | newOwner t _ hf ih => exact ih
  | @call log w held op _ ha ih =>
    intro t
    cases op with
    | makeNode t' =>
      simp only [TreeOp.exec, World.makeNode, World.set, TreeLog.leavesOn]
      split
      · rename_i e; subst e; exact ih t
      · exact ih t
    | makeLeafAlt t' k v =>
      simp only [TreeOp.exec, World.makeLeafAlt, World.makeAlt, World.set, TreeLog.leavesOn]
      by_cases e : t = t'
      · subst e
        rw [if_pos rfl, if_pos rfl]
        exact (ih t).leaf ⟨k, v⟩
      · rw [if_neg e, if_neg (Ne.symm e)]; exact ih t
    | makeBranchAlt t' a ns =>
      simp only [TreeOp.exec, World.makeBranchAlt, World.makeAlt, TreeLog.leavesOn]
      split
      · simp only [World.set]
        split
        · rename_i e; subst e; exact (ih t).branch _ _
        · exact ih t
      · exact ih t
    | addAlt n a =>
      simp only [TreeOp.exec, World.addAlt, TreeLog.leavesOn]
      split
      · cases hr : (w n.tree).addNodeAlt n.index a.index with
        | ok r =>
          obtain ⟨i', c⟩ := r
          simp only [World.update, World.set]
          split
          · rename_i e; subst e; rw [addNodeAlt_alts hr]; exact ih _
          · exact ih t
        | panic p => exact ih t
        | oof => exact ih t
      · exact ih t
    | addAll n m =>
      simp only [TreeOp.exec, World.addAll, TreeLog.leavesOn]
      split
      · cases hr : (w n.tree).addAll n.index m.index with
        | ok r =>
          obtain ⟨i', c⟩ := r
          simp only [World.update, World.set]
          split
          · rename_i e; subst e; rw [addAll_alts hr]; exact ih _
          · exact ih t
        | panic p => exact ih t
        | oof => exact ih t
      · exact ih t
    | alts n => exact ih t
    | content a => exact ih t
    | kind l => exact ih t
    | value l => exact ih t
    | action b => exact ih t
    | nodes b => exact ih t

theorem makeLeafNode_keeps {tok : Token T V} {n : Nat} (h : Keeps L i.alternatives)
    (he : i.makeLeafNode tok.kind tok.value = .ok (i', n)) :
    i'.alternatives = (i.alternatives.add (.leaf tok.kind tok.value)).1 := by
  simp only [Inner.makeLeafNode] at he
  cases hr : (i.makeNode.1.makeAlt (.leaf tok.kind tok.value)).1.addNodeAlt i.makeNode.2
      (i.makeNode.1.makeAlt (.leaf tok.kind tok.value)).2 with
  | ok r =>
    obtain ⟨j, c⟩ := r
    rw [hr] at he
    cases he
    rw [addNodeAlt_alts hr]; rfl
  | panic p => rw [hr] at he; cases he
  | oof => rw [hr] at he; cases he

theorem makeBranchNode_keeps {ak : AK} {ns : List Nat} {n : Nat} (h : Keeps L i.alternatives)
    (he : i.makeBranchNode ak ns = .ok (i', n)) : Keeps L i'.alternatives := by
  simp only [Inner.makeBranchNode] at he
  cases hr : (i.makeNode.1.makeAlt (.branch ak ns)).1.addNodeAlt i.makeNode.2
      (i.makeNode.1.makeAlt (.branch ak ns)).2 with
  | ok r =>
    obtain ⟨j, c⟩ := r
    rw [hr] at he
    cases he
    rw [addNodeAlt_alts hr]; exact h.branch _ _
  | panic p => rw [hr] at he; cases he
  | oof => rw [hr] at he; cases he
end

/-! ## A parse -/
section
variable [Ord T] [Ord NT] [Ord AK] [Ord V] [DecidableEq T] [DecidableEq NT] [TransOrd T] [TransOrd AK]
  [TransOrd V] [LawfulEqOrd T]
variable {L : List (Token T V)} {i i' : Inner T AK V} {addr : StartNonTerminal NT → Nat → Nat}

theorem insert_alts {st st' : Inner T AK V × EarleyStateSet T NT AK AV} {s : EarleyState T NT AK AV}
    {c : WasChanged} (h : EarleyStateSet.insert addr st s = .ok (st', c)) :
    st'.1.alternatives = st.1.alternatives := by
  unfold EarleyStateSet.insert at h
  cases hg : BMap.get? (EarleyStateKey.cmp addr) st.2 s.key with
  | none => rw [hg] at h; cases h; rfl
  | some ex =>
    rw [hg] at h
    simp only at h
    split at h
    · cases hc : changeIterM (ex.zip s.value) (fun (i : Inner T AK V) en => i.addAll en.1 en.2) st.1 with
      | ok r =>
        obtain ⟨j, d⟩ := r
        rw [hc] at h
        cases h
        exact changeIterM_alts (fun _ _ _ _ h => addAll_alts h) _ hc
      | panic p => rw [hc] at h; cases h
      | oof => rw [hc] at h; cases h
    · cases h

theorem inserts_alts {l : List (EarleyState T NT AK AV)} :
    ∀ {st st' : Inner T AK V × EarleyStateSet T NT AK AV} {acc c : WasChanged},
      changeIterM l (EarleyStateSet.insert addr) st acc = .ok (st', c) →
        st'.1.alternatives = st.1.alternatives := by
  induction l with
  | nil => intro st st' acc c h; cases h; rfl
  | cons x l ih =>
    intro st st' acc c h
    rw [changeIterM] at h
    cases hx : EarleyStateSet.insert addr st x with
    | ok r =>
      rw [hx] at h
      rw [ih h, insert_alts hx]
    | panic p => rw [hx] at h; cases h
    | oof => rw [hx] at h; cases h

theorem fromStates_alts {l : List (EarleyState T NT AK AV)} :
    ∀ {st st' : Inner T AK V × EarleyStateSet T NT AK AV},
      EarleyStateSet.fromStates addr l st = .ok st' → st'.1.alternatives = st.1.alternatives := by
  induction l with
  | nil => intro st st' h; cases h; rfl
  | cons x l ih =>
    intro st st' h
    rw [EarleyStateSet.fromStates] at h
    cases hx : EarleyStateSet.insert addr st x with
    | ok r =>
      rw [hx] at h
      rw [ih h, insert_alts hx]
    | panic p => rw [hx] at h; cases h
    | oof => rw [hx] at h; cases h

theorem scan_keeps {s : EarleyState T NT AK AV} {tok : Token T V} {r : Option (EarleyState T NT AK AV)}
    (h : Keeps L i.alternatives) (he : s.scan i tok = .ok (i', r)) :
    (r = none ∧ i' = i) ∨ i'.alternatives = (i.alternatives.add (.leaf tok.kind tok.value)).1 := by
  unfold EarleyState.scan at he
  split at he
  · cases he; exact .inl ⟨rfl, rfl⟩
  · split at he
    · cases he; exact .inl ⟨rfl, rfl⟩
    · split at he
      · split at he
        · rename_i hm
          cases he
          exact .inr (makeLeafNode_keeps h hm)
        · cases he
        · cases he
      · cases he; exact .inl ⟨rfl, rfl⟩

theorem shift_keeps {tok : Token T V} {l : List (EarleyState T NT AK AV)} :
    ∀ {st st' : Inner T AK V × EarleyStateSet T NT AK AV},
      EarleyStateSet.shift addr tok l st = .ok st' →
      ((st.2 = [] ∧ Keeps L st.1.alternatives) ∨ Keeps (L ++ [tok]) st.1.alternatives) →
      ((st'.2 = [] ∧ Keeps L st'.1.alternatives) ∨ Keeps (L ++ [tok]) st'.1.alternatives) := by
  induction l with
  | nil => intro st st' h hk; cases h; exact hk
  | cons s l ih =>
    intro st st' h hk
    rw [EarleyStateSet.shift] at h
    cases hs : s.scan st.1 tok with
    | panic p => rw [hs] at h; cases h
    | oof => rw [hs] at h; cases h
    | ok r =>
      obtain ⟨i', r⟩ := r
      rw [hs] at h
      have hleaf : i'.alternatives = (st.1.alternatives.add (.leaf tok.kind tok.value)).1 →
          Keeps (L ++ [tok]) i'.alternatives := by
        intro e
        rw [e]
        rcases hk with ⟨-, hk⟩ | hk
        · exact hk.leaf tok
        · rw [hk.leaf_old (by simp)]; exact hk
      have hsc : (r = none ∧ i' = st.1) ∨
          i'.alternatives = (st.1.alternatives.add (.leaf tok.kind tok.value)).1 := by
        rcases hk with ⟨-, hk⟩ | hk
        · exact scan_keeps hk hs
        · exact scan_keeps hk hs
      cases r with
      | none =>
        simp only at h
        rcases hsc with ⟨-, rfl⟩ | hsc
        · exact ih h hk
        · exact ih h (.inr (hleaf hsc))
      | some s' =>
        simp only at h
        rcases hsc with ⟨e, -⟩ | hsc
        · cases e
        · cases hx : EarleyStateSet.insert addr (i', st.2) s' with
          | panic p => rw [hx] at h; cases h
          | oof => rw [hx] at h; cases h
          | ok r =>
            obtain ⟨st1, c⟩ := r
            rw [hx] at h
            refine ih h (.inr ?_)
            rw [insert_alts hx]
            exact hleaf hsc

theorem completeLoop_keeps {s : EarleyState T NT AK AV} {l : List (EarleyState T NT AK AV)} :
    ∀ {i i' : Inner T AK V} {r : List (EarleyState T NT AK AV)}, Keeps L i.alternatives →
      s.completeLoop l i = .ok (i', r) → Keeps L i'.alternatives := by
  induction l with
  | nil => intro i i' r h he; cases he; exact h
  | cons st l ih =>
    intro i i' r h he
    rw [EarleyState.completeLoop] at he
    split at he
    · exact ih h he
    · split at he
      · exact ih h he
      · split at he
        · split at he
          · cases he
          · split at he
            · rename_i hm
              split at he
              · rename_i hl
                cases he
                exact ih (makeBranchNode_keeps h hm) hl
              · cases he
              · cases he
            · cases he
            · cases he
        · exact ih h he

theorem complete_keeps {s : EarleyState T NT AK AV} {prev : List (EarleyStateSet T NT AK AV)}
    {curr : EarleyStateSet T NT AK AV} {r : List (EarleyState T NT AK AV)} (h : Keeps L i.alternatives)
    (he : s.complete prev curr i = .ok (i', r)) : Keeps L i'.alternatives := by
  unfold EarleyState.complete at he
  split at he
  · split at he
    · exact completeLoop_keeps h he
    · split at he
      · exact completeLoop_keeps h he
      · cases he
  · cases he; exact h

variable {g : StartGrammar T NT AK AV}

theorem closureStates_keeps {prev : List (EarleyStateSet T NT AK AV)} {curr : EarleyStateSet T NT AK AV}
    {l : List (EarleyState T NT AK AV)} :
    ∀ {i i' : Inner T AK V} {r : List (EarleyState T NT AK AV)}, Keeps L i.alternatives →
      closureStates g prev curr l i = .ok (i', r) → Keeps L i'.alternatives := by
  induction l with
  | nil => intro i i' r h he; cases he; exact h
  | cons s l ih =>
    intro i i' r h he
    rw [closureStates] at he
    split at he
    · rename_i hc
      split at he
      · rename_i hl
        cases he
        exact ih (complete_keeps h hc) hl
      · cases he
      · cases he
    · cases he
    · cases he

theorem closeState_keeps {fuel : Nat} {prev : List (EarleyStateSet T NT AK AV)}
    {st st' : Inner T AK V × EarleyStateSet T NT AK AV} (h : st.2 ≠ [] → Keeps L st.1.alternatives)
    (he : closeState addr g fuel prev st = .ok st') : Keeps L st'.1.alternatives := by
  unfold closeState at he
  split at he
  · cases he
  · rename_i hne
    replace h := h (by intro e; rw [e] at hne; exact hne rfl)
    clear hne
    induction fuel generalizing st with
    | zero => cases he
    | succ fuel ih =>
      unfold changeLoop at he
      have hp : ∀ r, closePass addr g prev st = .ok r → Keeps L r.1.1.alternatives := by
        intro r hr
        unfold closePass at hr
        split at hr
        · rename_i hc
          obtain ⟨st1, c⟩ := r
          rw [inserts_alts hr]
          exact closureStates_keeps h hc
        · cases hr
        · cases hr
      cases hr : closePass addr g prev st with
      | panic p => rw [hr] at he; cases he
      | oof => rw [hr] at he; cases he
      | ok r =>
        obtain ⟨st1, c⟩ := r
        have hk := hp _ hr
        rw [hr] at he
        cases c with
        | changed => exact ih he hk
        | unchanged => cases he; exact hk

theorem parseLoop_keeps {fuel : Nat} {toks : List (Token T V)} :
    ∀ {L : List (Token T V)} {before : List (EarleyStateSet T NT AK AV)} {last : EarleyStateSet T NT AK AV}
      {i : Inner T AK V} {r : Inner T AK V × EarleyStateSet T NT AK AV}, Keeps L i.alternatives →
      parseLoop addr g fuel before last i toks = .ok r → Keeps (L ++ toks) r.1.alternatives := by
  induction toks with
  | nil => intro L before last i r h he; cases he; simpa using h
  | cons tok toks ih =>
    intro L before last i r h he
    rw [parseLoop] at he
    split at he
    · rename_i st hs
      split at he
      · rename_i hc
        have h1 := shift_keeps (L := L) hs (.inl ⟨rfl, h⟩)
        have h2 : st.2 ≠ [] → Keeps (L ++ [tok]) st.1.alternatives := by
          intro hne
          rcases h1 with ⟨e, -⟩ | h1
          · exact absurd e hne
          · exact h1
        have := ih (closeState_keeps h2 hc) he
        simpa using this
      · cases he
      · cases he
    · cases he
    · cases he

theorem parseInner_keeps {fuel : Nat} {toks : List (Token T V)} {r : Option Nat}
    (h : Keeps L i.alternatives) (he : parseInner addr g fuel i toks = .ok (i', r)) :
    Keeps (L ++ toks) i'.alternatives := by
  unfold parseInner at he
  split at he
  · rename_i st hs
    have h0 : Keeps L st.1.alternatives := by
      unfold EarleyStateSet.newStart at hs
      split at hs
      · rw [fromStates_alts hs]; exact h
      · cases hs
      · cases hs
    split at he
    · rename_i hc
      split at he
      · rename_i hl
        have := parseLoop_keeps (closeState_keeps (fun _ => h0) hc) hl
        split at he
        · cases he; exact this
        · cases he
        · cases he
      · cases he
      · cases he
    · cases he
    · cases he
  · cases he
  · cases he
end
end Bongo
