import Verif.Proof.Cfg
/-! Derivations of sentential forms, big-step. -/
namespace Bongo
namespace Cfg
variable {T N : Type} {G : Cfg T N}

/-- `s` derives the sentential form `γ`. -/
inductive SYields (G : Cfg T N) : List (Elem T N) → List (Elem T N) → Prop where
  | nil : SYields G [] []
  | keep {s γ} (e : Elem T N) : SYields G s γ → SYields G (e :: s) (e :: γ)
  | expand {A β s γ₁ γ₂} : G.prod A β → SYields G β γ₁ → SYields G s γ₂ →
      SYields G (.nonterm A :: s) (γ₁ ++ γ₂)

theorem SYields.refl (s : List (Elem T N)) : G.SYields s s := by
  induction s with
  | nil => exact .nil
  | cons e s ih => exact .keep e ih

theorem SYields.append {a b c d : List (Elem T N)} (h : G.SYields a c) (h' : G.SYields b d) :
    G.SYields (a ++ b) (c ++ d) := by
  induction h with
  | nil => exact h'
  | keep e _ ih => exact .keep e ih
  | expand hp h1 _ _ ih2 => rw [List.cons_append, List.append_assoc]; exact .expand hp h1 ih2

theorem SYields.split {a b c : List (Elem T N)} (h : G.SYields (a ++ b) c) :
    ∃ c₁ c₂, c = c₁ ++ c₂ ∧ G.SYields a c₁ ∧ G.SYields b c₂ := by
  induction a generalizing c with
  | nil => exact ⟨[], c, rfl, .nil, h⟩
  | cons e a ih =>
    cases h with
    | keep e h =>
      obtain ⟨c₁, c₂, rfl, h1, h2⟩ := ih h
      exact ⟨e :: c₁, c₂, rfl, .keep e h1, h2⟩
    | expand hp h1 h =>
      obtain ⟨c₁, c₂, rfl, h2, h3⟩ := ih h
      exact ⟨_ ++ c₁, c₂, by simp, .expand hp h1 h2, h3⟩

theorem SYields.derives {s γ : List (Elem T N)} (h : G.SYields s γ) : G.Derives s γ := by
  induction h with
  | nil => exact .refl _
  | keep e _ ih => exact Derives.append (.refl [e]) ih
  | expand hp _ _ ih1 ih2 => exact Derives.append ((derives_prod hp).trans ih1) ih2

theorem Step.syields {s s' γ : List (Elem T N)} (h : G.Step s s') (hy : G.SYields s' γ) :
    G.SYields s γ := by
  cases h with
  | mk u v A β hp =>
    rw [List.append_assoc] at hy
    obtain ⟨c₁, c₂, rfl, h1, h2⟩ := hy.split
    obtain ⟨c₃, c₄, rfl, h3, h4⟩ := h2.split
    exact h1.append (.expand hp h3 h4)

theorem syields_iff {s γ : List (Elem T N)} : G.SYields s γ ↔ G.Derives s γ := by
  constructor
  · exact SYields.derives
  · intro h
    unfold Derives at h
    induction h using Relation.ReflTransGen.head_induction_on with
    | refl => exact .refl _
    | head hs _ ih => exact hs.syields ih

theorem SYields.yields {s : List (Elem T N)} {w : List T} (h : G.SYields s (w.map .term)) :
    G.Yields s w := yields_iff.2 h.derives
end Cfg
end Bongo
