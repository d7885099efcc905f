import Verif.Proof.Debug
import Verif.Spec.DebugActions
/-!
# Reading back structs, maps and tuples
-/
namespace Bongo
open Fmt

/-- As `ReadsBack`, whatever follows. -/
structure ReadsAny {α : Type} (P : α → Prop) (f : Bool → α → List Char) (n : α → List Char → List Char) : Prop where
  tidies : ∀ a, P a → ∀ alt, Tidies (f alt a) (n a)
  uniq : ∀ a b, P a → P b → ∀ s t, n a s = n b t → a = b ∧ s = t

variable {α β : Type} {P : α → Prop} {f : Bool → α → List Char} {n : α → List Char → List Char}
  {Q : β → Prop} {f' : Bool → β → List Char} {n' : β → List Char → List Char}

theorem ReadsAny.back (h : ReadsAny P f n) : ReadsBack P f n :=
  ⟨h.tidies, fun a b ha hb s t _ _ e => h.uniq a b ha hb s t e⟩

theorem ReadsBack.struct2Any (h1 : ReadsBack P f n) (h2 : ReadsBack Q f' n') {name w1 w2 : List Char}
    (hn : PlainWord name) (hw1 : PlainWord w1) (hw2 : PlainWord w2) :
    ReadsAny (fun p : α × β => P p.1 ∧ Q p.2)
      (fun alt p => debugStruct alt name [(w1, f alt p.1), (w2, f' alt p.2)]) (nStruct2 name w1 w2 n n') := by
  refine ⟨(h1.struct2 h2 hn hw1 hw2).tidies, ?_⟩
  intro p q hp hq s t e
  have e := (List.cons.inj (List.append_cancel_left e)).2
  obtain ⟨e1, e2⟩ := h1.uniq _ _ hp.1 hq.1 _ _ (.comma _) (.comma _)
    (List.cons.inj (List.append_cancel_left e)).2
  have e2 := (List.cons.inj e2).2
  obtain ⟨e3, e4⟩ := h2.uniq _ _ hp.2 hq.2 _ _ (.struct _) (.struct _)
    (List.cons.inj (List.append_cancel_left e2)).2
  exact ⟨_root_.Prod.ext e1 e3, (List.cons.inj e4).2⟩

/-- The tidied text of a struct with one field. -/
def nStruct1 (name w : List Char) (n : α → List Char → List Char) (a : α) (r : List Char) : List Char :=
  name ++ '{' :: (w ++ ':' :: n a ('}' :: r))

theorem ReadsBack.struct1 (h : ReadsBack P f n) {name w : List Char} (hn : PlainWord name) (hw : PlainWord w) :
    ReadsAny P (fun alt a => debugStruct alt name [(w, f alt a)]) (nStruct1 name w n) := by
  refine ⟨fun a ha alt => ?_, ?_⟩
  · exact debugStruct_tidies (f := (w, f alt a)) (fs := []) hn.1 hn.2
      (.cons (field_tidies hw.1 hw.2 (h.tidies a ha alt).1) .nil) alt
  · intro a b ha hb s t e
    have e := (List.cons.inj (List.append_cancel_left e)).2
    obtain ⟨e1, e2⟩ := h.uniq _ _ ha hb _ _ (.struct _) (.struct _)
      (List.cons.inj (List.append_cancel_left e)).2
    exact ⟨e1, (List.cons.inj e2).2⟩

/-- The tidied text of a tuple with one field. -/
def nTuple1 (name : List Char) (n : α → List Char → List Char) (a : α) (r : List Char) : List Char :=
  name ++ '(' :: n a (')' :: r)

theorem ReadsAny.tuple1 (h : ReadsAny P f n) {name : List Char} (hn : PlainWord name) :
    ReadsAny P (fun alt a => debugTuple alt name [f alt a]) (nTuple1 name n) := by
  have hc : ∀ r, tidyStep ')' r = ')' :: r := tidyStep_char (by decide) (by decide) (by decide)
  have ho : ∀ r, tidyStep '(' r = '(' :: r := tidyStep_char (by decide) (by decide) (by decide)
  have hne : name ≠ [] := by obtain ⟨c, l, rfl, -⟩ := hn.2; simp
  refine ⟨fun a ha alt => ⟨fun r => ?_, fun r => ?_⟩, ?_⟩
  · have h1 := (h.tidies a ha alt).1
    cases alt <;>
      simp [debugTuple, tupleFields, tupleFinish, tupleField, tidyOn_append, tidyOn_cons, tidyOn_pad,
        tidyStep_newline, hc, ho, tidyStep_comma_close (c := ')') (by decide), h1, hne, tidyOn_plain hn.1, nTuple1]
  · obtain ⟨c, l, rfl, hc⟩ := hn.2
    refine ⟨c, _, rfl, ?_⟩
    have := hn.1 c List.mem_cons_self
    simp only [closers, List.mem_cons, List.not_mem_nil, or_false, not_or]
    exact ⟨hc, fun e => this (e ▸ by decide), fun e => this (e ▸ by decide)⟩
  · intro a b ha hb s t e
    obtain ⟨e1, e2⟩ := h.uniq a b ha hb _ _ (List.cons.inj (List.append_cancel_left e)).2
    exact ⟨e1, (List.cons.inj e2).2⟩

/-! ### Maps -/

/-- The tidied text of an entry. -/
def nEntry (k : α → List Char) (n' : β → List Char → List Char) (e : α × β) (r : List Char) : List Char :=
  k e.1 ++ ':' :: n' e.2 r

theorem ReadsBack.entry {k : Bool → α → List Char} {K : α → List Char}
    (hk : ∀ a, P a → ∀ c ∈ K a, c ∉ debugReserved ∧ (K a).head? ≠ some ')')
    (ht : ∀ a, P a → ∀ alt r, tidyOn (k alt a) r = K a ++ r)
    (hi : ∀ a b, P a → P b → K a = K b → a = b) (h : ReadsBack Q f' n') :
    ReadsBack (fun e : α × β => P e.1 ∧ Q e.2) (fun alt e => k alt e.1 ++ [':', ' '] ++ f' alt e.2)
      (nEntry K n') := by
  refine ⟨fun e he alt => ⟨fun r => ?_, fun r => ?_⟩, ?_⟩
  · rw [tidyOn_append, tidyOn_append, (h.tidies _ he.2 alt).1, ht _ he.1]
    show _ ++ tidyStep ':' (tidyStep ' ' _) = _
    rw [tidyStep_blank, tidyStep_char (by decide) (by decide) (by decide)]
    rfl
  · show ∃ c l, K e.1 ++ ':' :: n' e.2 r = c :: l ∧ _
    rcases hl : K e.1 with _ | ⟨c, l⟩
    · exact ⟨_, _, rfl, by decide⟩
    · refine ⟨c, _, rfl, ?_⟩
      obtain ⟨h1, h2⟩ := hk e.1 he.1 c (by rw [hl]; exact List.mem_cons_self)
      rw [hl] at h2
      simp only [closers, List.mem_cons, List.not_mem_nil, or_false, not_or]
      exact ⟨fun e => h2 (by rw [e]; rfl), fun e => h1 (e ▸ by decide), fun e => h1 (e ▸ by decide)⟩
  · intro a b ha hb s t hs ht' e
    obtain ⟨h1, h2⟩ := split_reserved (fun c hc => (hk a.1 ha.1 c hc).1) (fun c hc => (hk b.1 hb.1 c hc).1)
      (.cons (by decide) _) (.cons (by decide) _) e
    obtain ⟨h3, h4⟩ := h.uniq _ _ ha.2 hb.2 s t hs ht' (List.cons.inj h2).2
    exact ⟨_root_.Prod.ext (hi _ _ ha.1 hb.1 h1) h3, h4⟩

/-- A map with names as keys. -/
theorem ReadsBack.nameMap (h : ReadsBack Q f' n') :
    ReadsBack (fun es : List (Name × β) => ∀ e ∈ es, PlainIdent e.1 ∧ Q e.2)
      (fun alt es => debugMap alt (es.map fun e => (nameFmt e.1, f' alt e.2)))
      (nSet (nEntry String.toList n')) := by
  have h1 := (ReadsBack.entry (P := PlainIdent) (k := fun _ => nameFmt) (K := String.toList)
    (fun a ha c hc => ⟨ident_chars ha c hc, fun e => by
      have := ha ')' (List.mem_of_mem_head? e)
      exact this (by decide)⟩)
    (fun a ha alt r => tidyOn_plain (ident_chars ha) r) (fun a b _ _ e => String.ext e) h).set
  refine ⟨fun es hes alt => ?_, h1.uniq⟩
  have := h1.tidies es hes alt
  unfold debugMap
  rw [List.map_map]
  exact this

/-- A map with plain keys. -/
theorem ReadsBack.symMap [Dbg α] [PlainDbg α] (h : ReadsBack Q f' n') :
    ReadsBack (fun es : List (α × β) => ∀ e ∈ es, PlainDbg.Plain e.1 ∧ Q e.2)
      (fun alt es => debugMap alt (es.map fun e => (Dbg.fmt alt e.1, f' alt e.2)))
      (nSet (nEntry (Dbg.fmt false) n')) := by
  have h1 := (ReadsBack.entry (P := PlainDbg.Plain (α := α)) (k := Dbg.fmt) (K := Dbg.fmt false)
    (fun a ha c hc => ⟨PlainDbg.chars a ha c hc, by
      obtain ⟨d, l, h2, h3⟩ := PlainDbg.first a ha
      rw [h2]
      exact fun e => h3 (Option.some.inj e)⟩)
    (fun a ha alt r => ((sym_reads α).tidies a ha alt).1 r) (PlainDbg.inj) h).set
  refine ⟨fun es hes alt => ?_, h1.uniq⟩
  have := h1.tidies es hes alt
  unfold debugMap
  rw [List.map_map]
  exact this

/-! ### Keys and trees -/
section
variable {NT AK : Type} [Dbg NT] [Dbg AK] [PlainDbg NT] [PlainDbg AK]

/-- The tidied text of a production key. -/
def nProdKey (k : ProdKey NT AK) : List Char → List Char :=
  nStruct2 "ProdKey".toList "head".toList "action_key".toList nSym nSym (k.head, k.actionKey)

theorem prodKey_reads : ReadsAny (ProdKey.PlainKey (NT := NT) (AK := AK)) Dbg.fmt nProdKey := by
  have h := (sym_reads NT).struct2Any (sym_reads AK) (name := "ProdKey".toList) (w1 := "head".toList)
    (w2 := "action_key".toList) ⟨by decide, 'P', _, rfl, by decide⟩ ⟨by decide, 'h', _, rfl, by decide⟩
    ⟨by decide, 'a', _, rfl, by decide⟩
  refine ⟨fun k hk alt => h.tidies (k.head, k.actionKey) hk alt, fun a b ha hb s t e => ?_⟩
  obtain ⟨e1, e2⟩ := h.uniq (a.head, a.actionKey) (b.head, b.actionKey) ha hb s t e
  cases a; cases b
  simp only [_root_.Prod.mk.injEq] at e1
  exact ⟨by rw [e1.1, e1.2], e2⟩

/-- The tidied text of a null tree. -/
def nTree : (k : Nat) → TreeNode (ProdKey NT AK) → List Char → List Char
  | 0, _, r => r
  | k + 1, .mk a ps, r => nStruct2 "TreeNode".toList "action_name".toList "params".toList nProdKey
      (nSet (nEntry String.toList (nTuple1 "Node".toList (nTree k)))) (a, ps) r

theorem TreeNode.fmtParams_map (alt : Bool) (ps : List (Name × TreeNode (ProdKey NT AK))) :
    TreeNode.fmtParams alt ps = ps.map fun e => (nameFmt e.1, debugTuple alt "Node".toList [Dbg.fmt alt e.2]) := by
  induction ps with
  | nil => rfl
  | cons e ps ih => obtain ⟨m, t⟩ := e; rw [TreeNode.fmtParams, ih]; rfl

theorem tree_reads_size (k : Nat) : ReadsAny (fun t : TreeNode (ProdKey NT AK) => t.PlainTree ∧ sizeOf t ≤ k)
    Dbg.fmt (nTree k) := by
  induction k with
  | zero =>
    refine ⟨fun t ht => ?_, fun t _ ht => ?_⟩ <;>
    · obtain ⟨a, ps⟩ := t
      have := ht.2
      simp at this
  | succ k ih =>
    have h := (prodKey_reads (NT := NT) (AK := AK)).back.struct2Any ((ih.tuple1 (name := "Node".toList) ⟨by decide, 'N', _, rfl, by decide⟩).back.nameMap)
      (name := "TreeNode".toList) (w1 := "action_name".toList)
      (w2 := "params".toList) ⟨by decide, 'T', _, rfl, by decide⟩ ⟨by decide, 'a', _, rfl, by decide⟩
      ⟨by decide, 'p', _, rfl, by decide⟩
    have hp : ∀ a ps, (TreeNode.mk a ps : TreeNode (ProdKey NT AK)).PlainTree ∧ sizeOf (TreeNode.mk a ps) ≤ k + 1 →
        a.PlainKey ∧ ∀ e ∈ ps, PlainIdent e.1 ∧ e.2.PlainTree ∧ sizeOf e.2 ≤ k := by
      rintro a ps ⟨h1, h2⟩
      cases h1 with
      | mk h3 h4 h5 =>
        refine ⟨h3, fun e he => ⟨h4 e he, h5 e he, ?_⟩⟩
        have := List.sizeOf_lt_of_mem he
        have h6 : sizeOf e = 1 + sizeOf e.1 + sizeOf e.2 := by cases e; rfl
        simp at h2
        omega
    refine ⟨?_, ?_⟩
    · rintro ⟨a, ps⟩ ht alt
      have := h.tidies (a, ps) (hp a ps ht) alt
      show Tidies (TreeNode.fmt alt (.mk a ps)) _
      rw [TreeNode.fmt, TreeNode.fmtParams_map]
      exact this
    · rintro ⟨a, ps⟩ ⟨b, qs⟩ ha hb s t e
      obtain ⟨e1, e2⟩ := h.uniq (a, ps) (b, qs) (hp a ps ha) (hp b qs hb) s t e
      simp only [_root_.Prod.mk.injEq] at e1
      exact ⟨by rw [e1.1, e1.2], e2⟩

theorem nTree_mono {t : TreeNode (ProdKey NT AK)} {k l : Nat} (ht : t.PlainTree) (hk : sizeOf t ≤ k) (hl : sizeOf t ≤ l)
    (r : List Char) : nTree k t r = nTree l t r := by
  rw [← ((tree_reads_size k).tidies t ⟨ht, hk⟩ false).1 r, ← ((tree_reads_size l).tidies t ⟨ht, hl⟩ false).1 r]

/-- Null trees can be read back. -/
theorem tree_reads : ReadsAny (TreeNode.PlainTree (NT := NT) (AK := AK)) Dbg.fmt (fun t => nTree (sizeOf t) t) := by
  refine ⟨fun t ht alt => (tree_reads_size (sizeOf t)).tidies t ⟨ht, Nat.le_refl _⟩ alt, fun a b ha hb s t e => ?_⟩
  rw [nTree_mono ha (Nat.le_refl _) (Nat.le_max_left (sizeOf a) (sizeOf b)),
    nTree_mono hb (Nat.le_refl _) (Nat.le_max_right (sizeOf a) (sizeOf b))] at e
  exact (tree_reads_size (max (sizeOf a) (sizeOf b))).uniq a b ⟨ha, Nat.le_max_left _ _⟩ ⟨hb, Nat.le_max_right _ _⟩ s t e
end
end Bongo
