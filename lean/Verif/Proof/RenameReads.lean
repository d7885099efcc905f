import Verif.Proof.RenameGrammar
/-!
# Lemmas: trees read and parses with other names
-/
set_option linter.unusedSectionVars false
namespace Bongo
open Std
variable {T NT AK AV V T' NT' AK' AV' V' : Type}
variable [Ord T] [Ord AK] [Ord V] [TransOrd T] [TransOrd AK] [TransOrd V]
variable [Ord T'] [Ord AK'] [Ord V'] [TransOrd T'] [TransOrd AK'] [TransOrd V']

section forest
variable {fT : T → T'} {fA : AK → AK'} {fV : V → V'}

theorem WorldRen.reads (hi : RenInj fT fA fV) {w : World T AK V} {w' : World T' AK' V'}
    (h : WorldRen fT fA fV w w') :
    (∀ (s : DTree (Token T V) AK) (n : Node), Reads w s n → Reads w' (s.renamed fT fA fV) n) ∧
      ∀ (s' : DTree (Token T' V') AK') (n : Node), Reads w' s' n →
        ∃ s, s' = s.renamed fT fA fV ∧ Reads w s n := by
  have hx := fun op => (h.exec hi op).2
  have halts : ∀ n, w'.alts n = w.alts n := by
    intro n
    have := hx (.alts n)
    simp only [TreeOp.renamed, TreeOp.exec] at this
    cases h1 : w.alts n <;> cases h2 : w'.alts n <;> simp_all [Res.mapOut, TreeOut.renamed]
  have hcont : ∀ n, w'.content n = w.content n := by
    intro n
    have := hx (.content n)
    simp only [TreeOp.renamed, TreeOp.exec] at this
    cases h1 : w.content n <;> cases h2 : w'.content n <;> simp_all [Res.mapOut, TreeOut.renamed]
  have hkind : ∀ n, w'.kind n = (w.kind n).mapOut fT := by
    intro n
    have := hx (.kind n)
    simp only [TreeOp.renamed, TreeOp.exec] at this
    cases h1 : w.kind n <;> cases h2 : w'.kind n <;> simp_all [Res.mapOut, TreeOut.renamed]
  have hval : ∀ n, w'.value n = (w.value n).mapOut fV := by
    intro n
    have := hx (.value n)
    simp only [TreeOp.renamed, TreeOp.exec] at this
    cases h1 : w.value n <;> cases h2 : w'.value n <;> simp_all [Res.mapOut, TreeOut.renamed]
  have hact : ∀ n, w'.action n = (w.action n).mapOut fA := by
    intro n
    have := hx (.action n)
    simp only [TreeOp.renamed, TreeOp.exec] at this
    cases h1 : w.action n <;> cases h2 : w'.action n <;> simp_all [Res.mapOut, TreeOut.renamed]
  have hnod : ∀ n, w'.branchNodes n = w.branchNodes n := by
    intro n
    have := hx (.nodes n)
    simp only [TreeOp.renamed, TreeOp.exec] at this
    cases h1 : w.branchNodes n <;> cases h2 : w'.branchNodes n <;> simp_all [Res.mapOut, TreeOut.renamed]
  refine ⟨fun s => ?_, fun s' => ?_⟩
  · refine DTree.rec (motive_1 := fun s => ∀ n, Reads w s n → Reads w' (s.renamed fT fA fV) n)
      (motive_2 := fun cs => ∀ ns, ReadsAll w cs ns → ReadsAll w' (DTree.renameds fT fA fV cs) ns)
      ?_ ?_ ?_ ?_ s
    · intro tok n hr
      simp only [Reads, DTree.renamed] at hr ⊢
      obtain ⟨alts, a, l, h1, h2, h3, h4, h5⟩ := hr
      exact ⟨alts, a, l, by rw [halts, h1], h2, by rw [hcont, h3], by rw [hkind, h4]; rfl,
        by rw [hval, h5]; rfl⟩
    · intro ak cs ih n hr
      simp only [Reads, DTree.renamed] at hr ⊢
      obtain ⟨alts, a, b, ns, h1, h2, h3, h4, h5, h6⟩ := hr
      exact ⟨alts, a, b, ns, by rw [halts, h1], h2, by rw [hcont, h3], by rw [hact, h4]; rfl,
        by rw [hnod, h5], ih _ h6⟩
    · intro ns hr
      cases ns <;> simp_all [ReadsAll, DTree.renameds]
    · intro c cs ih1 ih2 ns hr
      cases ns with
      | nil => simp [ReadsAll] at hr
      | cons n ns =>
        simp only [ReadsAll, DTree.renameds] at hr ⊢
        exact ⟨ih1 _ hr.1, ih2 _ hr.2⟩
  · refine DTree.rec (motive_1 := fun s' => ∀ n, Reads w' s' n → ∃ s, s' = s.renamed fT fA fV ∧ Reads w s n)
      (motive_2 := fun cs' => ∀ ns, ReadsAll w' cs' ns →
        ∃ cs, cs' = DTree.renameds fT fA fV cs ∧ ReadsAll w cs ns) ?_ ?_ ?_ ?_ s'
    · intro tok' n hr
      simp only [Reads] at hr
      obtain ⟨alts, a, l, h1, h2, h3, h4, h5⟩ := hr
      rw [hkind] at h4
      rw [hval] at h5
      cases hk : w.kind l with
      | ok k =>
        cases hv : w.value l with
        | ok v =>
          rw [hk] at h4
          rw [hv] at h5
          simp only [Res.mapOut, Res.ok.injEq] at h4 h5
          refine ⟨.leaf ⟨k, v⟩, ?_, ?_⟩
          · simp only [DTree.renamed, Token.renamed, h4, h5]
          · simp only [Reads]
            exact ⟨alts, a, l, by rw [← halts, h1], h2, by rw [← hcont, h3], hk, hv⟩
        | panic p => rw [hv] at h5; cases h5
        | oof => rw [hv] at h5; cases h5
      | panic p => rw [hk] at h4; cases h4
      | oof => rw [hk] at h4; cases h4
    · intro ak' cs' ih n hr
      simp only [Reads] at hr
      obtain ⟨alts, a, b, ns, h1, h2, h3, h4, h5, h6⟩ := hr
      rw [hact] at h4
      cases hk : w.action b with
      | ok ak =>
        rw [hk] at h4
        simp only [Res.mapOut, Res.ok.injEq] at h4
        obtain ⟨cs, rfl, h7⟩ := ih _ h6
        refine ⟨.node ak cs, ?_, ?_⟩
        · simp only [DTree.renamed, h4]
        · simp only [Reads]
          exact ⟨alts, a, b, ns, by rw [← halts, h1], h2, by rw [← hcont, h3], hk, by rw [← hnod, h5], h7⟩
      | panic p => rw [hk] at h4; cases h4
      | oof => rw [hk] at h4; cases h4
    · intro ns hr
      cases ns with
      | nil => exact ⟨[], rfl, by simp [ReadsAll]⟩
      | cons n ns => simp [ReadsAll] at hr
    · intro c' cs' ih1 ih2 ns hr
      cases ns with
      | nil => simp [ReadsAll] at hr
      | cons n ns =>
        simp only [ReadsAll] at hr
        obtain ⟨c, rfl, h1⟩ := ih1 _ hr.1
        obtain ⟨cs, rfl, h2⟩ := ih2 _ hr.2
        exact ⟨c :: cs, rfl, by simp only [ReadsAll]; exact ⟨h1, h2⟩⟩
end forest

section parse
variable [Ord NT] [DecidableEq T] [DecidableEq NT] [TransOrd NT] [LawfulEqOrd NT] [LawfulEqOrd T]
variable [Ord NT'] [DecidableEq T'] [DecidableEq NT'] [TransOrd NT'] [LawfulEqOrd NT']
variable [LawfulEqOrd T']
variable {ρ : Renaming T NT AK AV T' NT' AK' AV'} {fV : V → V'}
variable {g : Grammar T NT AK AV} {g' : Grammar T' NT' AK' AV'}
variable {addr : StartNonTerminal NT → Nat → Nat} {addr' : StartNonTerminal NT' → Nat → Nat}

theorem parse_worldRen (hg : g.Accepted) (hg' : g'.Accepted) (hρ : ρ.SymInjective)
    (hi : RenInj ρ.term ρ.key fV) (hr : g.RenamedTo ρ g')
    (ha : ∀ A i, addr' (ρ.start.nonterm A) i = addr A i) {w : World T AK V} {w' : World T' AK' V'}
    (hw : WorldRen ρ.term ρ.key fV w w') (t fuel : Nat) (toks : List (Token T V)) :
    Res.Both (fun x y => WorldRen ρ.term ρ.key fV x.1 y.1 ∧ x.2 = y.2) (parse addr g.wrapped fuel w t toks)
      (parse addr' g'.wrapped fuel w' t (toks.map (Token.renamed ρ.term fV))) := by
  have hgr := hr.wrapped.tryGetRule (Grammar.wrapped_wf hg.valid.toWF) (Grammar.wrapped_wf hg'.valid.toWF)
    (fun a b => Renaming.start_nonterm_inj hρ)
  have := Renaming.parseInner ha hr.wrapped.1 hgr hρ hi fuel toks (hw t)
  unfold parse
  rcases this.out with ⟨a, b, e1, e2, r1, r2⟩ | ⟨p, e1, e2⟩ | ⟨e1, e2⟩ <;> simp only [e1, e2]
  · exact ⟨hw.set t r1, by rw [r2]⟩
  · rfl
  · trivial
end parse
end Bongo
