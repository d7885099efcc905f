import Verif.Proof.CanonReads
import Verif.Spec.Rename
/-!
# Lemmas: the parser only carries the values of the tokens
-/
set_option linter.unusedSectionVars false
namespace Bongo
variable {T NT AK AV V V' : Type} {sg : StartGrammar T NT AK AV} {toks : List (Token T V)} {f : V → V'}

/-- The content with other values. -/
def CC.mapValue (f : V → V') : CC T NT AK AV V → CC T NT AK AV V'
  | .leaf k v => .leaf k (f v)
  | .branch a ns => .branch a ns

local notation "toks'" => List.map (Token.renamed id f) toks

theorem KInit_values (j : Nat) (prev : List (KSet T NT AK AV)) :
    KInit sg toks' j prev = KInit sg toks j prev := by
  cases j with
  | zero => rfl
  | succ j =>
    funext K v
    simp only [KInit, List.getElem?_map, Option.map_eq_some_iff, eq_iff_iff]
    constructor
    · rintro ⟨S, _, e, v0, h1, ⟨tok, h2, rfl⟩, h3, h4, h5⟩
      exact ⟨S, tok, e, v0, h1, h2, h3, h4, h5⟩
    · rintro ⟨S, tok, e, v0, h1, h2, h3, h4, h5⟩
      exact ⟨S, _, e, v0, h1, ⟨tok, h2, rfl⟩, h3, h4, h5⟩

theorem KPrev_values (j : Nat) : KPrev sg toks' j = KPrev sg toks j := by
  induction j with
  | zero => rfl
  | succ j ih => rw [KPrev, KPrev, ih, KInit_values]

theorem KAt_values (j : Nat) : KAt sg toks' j = KAt sg toks j := by
  unfold KAt
  rw [KPrev_values, KInit_values]

theorem CAlt.values {j : Nat} {ν : NName T NT AK AV} {c : CC T NT AK AV V} (h : CAlt sg toks j ν c) :
    CAlt sg toks' j ν (c.mapValue f) := by
  induction h with
  | old _ ih => exact .old ih
  | @scan j tok e v h1 h2 h3 =>
    exact .scan (tok := tok.renamed id f) (by rw [List.getElem?_map, h1]; rfl)
      (by rw [KAt_values]; exact h2) h3
  | branch h1 h2 => exact .branch (by rw [KPrev_values, KAt_values]; exact h1) h2
  | merge h1 h2 h3 h4 _ ih =>
    exact .merge (by rw [KPrev_values, KAt_values]; exact h1) (by rw [KAt_values]; exact h2) h3 h4 ih

theorem CAlt.values' {j : Nat} {ν : NName T NT AK AV} {c' : CC T NT AK AV V'} (h : CAlt sg toks' j ν c') :
    ∃ c, c' = c.mapValue f ∧ CAlt sg toks j ν c := by
  generalize ht : List.map (Token.renamed id f) toks = ts at h
  induction h with
  | old _ ih =>
    obtain ⟨c, rfl, h⟩ := ih
    exact ⟨c, rfl, .old h⟩
  | @scan j tok' e v h1 h2 h3 =>
    subst ht
    rw [List.getElem?_map, Option.map_eq_some_iff] at h1
    obtain ⟨tok, h1, rfl⟩ := h1
    exact ⟨.leaf tok.kind tok.value, rfl, .scan h1 (by rw [← KAt_values (f := f)]; exact h2) h3⟩
  | @branch j e q k u v ak h1 h2 =>
    subst ht
    rw [KPrev_values, KAt_values] at h1
    exact ⟨.branch ak u, rfl, .branch h1 h2⟩
  | merge h1 h2 h3 h4 _ ih =>
    obtain ⟨c, rfl, h⟩ := ih
    subst ht
    rw [KPrev_values, KAt_values] at h1
    rw [KAt_values] at h2
    exact ⟨c, rfl, .merge h1 h2 h3 h4 h⟩

theorem CReads.values (j : Nat) (s : DTree (Token T V) AK) : ∀ ν, CReads sg toks j s ν →
    CReads sg toks' j (s.renamed id id f) ν := by
  refine DTree.rec (motive_1 := fun s => ∀ ν, CReads sg toks j s ν →
      CReads sg toks' j (s.renamed id id f) ν)
    (motive_2 := fun cs => ∀ νs, CReadsAll sg toks j cs νs →
      CReadsAll sg toks' j (DTree.renameds id id f cs) νs) ?_ ?_ ?_ ?_ s
  · intro tok ν h
    rw [CReads] at h
    rw [DTree.renamed, CReads]
    exact h.values
  · intro ak cs ih ν h
    rw [CReads] at h
    rw [DTree.renamed, CReads]
    obtain ⟨νs, h1, h2⟩ := h
    exact ⟨νs, h1.values, ih νs h2⟩
  · intro νs h
    cases νs <;> simpa [CReadsAll, DTree.renameds] using h
  · intro c cs ih1 ih2 νs h
    cases νs with
    | nil => simp [CReadsAll] at h
    | cons ν νs =>
      rw [CReadsAll] at h
      rw [DTree.renameds, CReadsAll]
      exact ⟨ih1 _ h.1, ih2 _ h.2⟩

theorem CReads.values' (j : Nat) (s' : DTree (Token T V') AK) : ∀ ν, CReads sg toks' j s' ν →
    ∃ s, s' = s.renamed id id f ∧ CReads sg toks j s ν := by
  refine DTree.rec (motive_1 := fun s' => ∀ ν, CReads sg toks' j s' ν →
      ∃ s, s' = s.renamed id id f ∧ CReads sg toks j s ν)
    (motive_2 := fun cs' => ∀ νs, CReadsAll sg toks' j cs' νs →
      ∃ cs, cs' = DTree.renameds id id f cs ∧ CReadsAll sg toks j cs νs) ?_ ?_ ?_ ?_ s'
  · intro tok' ν h
    rw [CReads] at h
    obtain ⟨c, hc, h1⟩ := h.values'
    cases c with
    | branch a ns => cases hc
    | leaf k v =>
      obtain ⟨k', v'⟩ := tok'
      simp only [CC.mapValue, CC.leaf.injEq] at hc
      obtain ⟨rfl, rfl⟩ := hc
      exact ⟨.leaf ⟨k', v⟩, rfl, by rw [CReads]; exact h1⟩
  · intro ak cs' ih ν h
    rw [CReads] at h
    obtain ⟨νs, h1, h2⟩ := h
    obtain ⟨c, hc, h0⟩ := h1.values'
    cases c with
    | leaf k v => cases hc
    | branch a ns =>
      simp only [CC.mapValue, CC.branch.injEq] at hc
      obtain ⟨rfl, rfl⟩ := hc
      obtain ⟨cs, rfl, h3⟩ := ih _ h2
      exact ⟨.node ak cs, rfl, by rw [CReads]; exact ⟨_, h0, h3⟩⟩
  · intro νs h
    cases νs with
    | nil => exact ⟨[], rfl, by simp [CReadsAll]⟩
    | cons ν νs => simp [CReadsAll] at h
  · intro c' cs' ih1 ih2 νs h
    cases νs with
    | nil => simp [CReadsAll] at h
    | cons ν νs =>
      rw [CReadsAll] at h
      obtain ⟨c, rfl, h1⟩ := ih1 _ h.1
      obtain ⟨cs, rfl, h2⟩ := ih2 _ h.2
      exact ⟨c :: cs, rfl, by rw [CReadsAll]; exact ⟨h1, h2⟩⟩
end Bongo
