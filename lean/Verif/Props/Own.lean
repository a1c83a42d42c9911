import Verif.Spec.Own
import Verif.Lemmas.Own
/-!
# C105: types with their own MarshalHCL and UnmarshalHCL

The content that the method `MarshalHCL` of a type writes is the content of its block in the text of `Marshal`, and it is the
content of the text that its method `UnmarshalHCL` gets.

This fails for heredocs, whose lines are indented (`C105_violated`).
-/
namespace Verif.HclS
open Hcl

theorem isBlank_IsBlank {bs : Bytes} (h : isBlank bs = true) : Hcl.IsBlank bs := by
  intro c hc
  have := List.all_eq_true.1 h c hc
  simp only [isBlankB, Bool.or_eq_true, decide_eq_true_eq] at this
  rcases this with ((rfl | rfl) | rfl) | rfl <;> rfl

/-- The tokens of the text in the block. -/
theorem ownText_lex {bs : Bytes} {body : Hcl.Body} (h : parseConfig bs = .ok body) {level : Nat} (hl : 0 < level) :
    ∃ ts, Lx (ownText bs level) (.obrace :: .nl :: ts ++ [.cbrace]) ∧
      lex .start (between (ownText bs level)) = .ok (.nl :: ts) ∧
      (∀ u f', 3 * ts.length + 3 ≤ f' → parseBody false f' (ts ++ .cbrace :: u) = .ok (body, u)) ∧
      (∀ f', 3 * ts.length + 3 ≤ f' → parseBody true f' ts = .ok (body, [])) := by
  by_cases hb : isBlank bs = true
  · have hbody := parse_blank h (isBlank_IsBlank hb)
    subst hbody
    have ht : ownText bs level = [123] ++ indent (level + 1) ++ [10] ++ indent level ++ [125] := by
      simp [ownText, hl, hb, indentLines]
    refine ⟨[], ?_, ?_, ?_, ?_⟩
    · rw [ht]
      simpa using Lx.append (Lx.append (Lx.append (Lx.append .obrace (Lx.indent (level + 1))) .nl) (Lx.indent level)) .cbrace
    · have e : between (ownText bs level) = indent (level + 1) ++ [10] ++ indent level := by
        rw [ht]
        simp only [between, List.cons_append, List.nil_append, List.drop_one, List.tail_cons, List.dropLast_concat]
      rw [e]
      have := (Lx.append (Lx.append (Lx.indent (level + 1)) .nl) (Lx.indent level)) []
      simpa [lex, lexEnd, Except.map] using this
    · intro u f' hf
      obtain ⟨f', rfl⟩ : ∃ g, f' = g + 1 := ⟨f' - 1, by omega⟩
      simp [parseBody, skipNl]
    · intro f' hf
      obtain ⟨f', rfl⟩ : ∃ g, f' = g + 1 := ⟨f' - 1, by omega⟩
      simp [parseBody, skipNl]
  · unfold parseConfig at h
    obtain ⟨ts, h1, h2⟩ := Except.bind_ok' h
    obtain ⟨y, h3, h4⟩ := Except.map_ok' h2
    subst h4
    have ht : ownText bs level = [123] ++ indent (level + 1) ++ [10] ++ indent level ++ (indentLines (indent level) bs ++ [10]) ++
        indent level ++ [125] := by
      simp [ownText, hl, hb, indentLines, indentLines_append]
    have hx : Lx (indentLines (indent level) bs ++ [10]) (ts ++ [.nl]) := by
      intro r
      have := lex_then_nl _ r _ _ (lex_indentLines level bs _ _ h1)
      simpa using this
    refine ⟨ts ++ [.nl], ?_, ?_, ?_, ?_⟩
    · rw [ht]
      simpa using Lx.append (Lx.append (Lx.append (Lx.append (Lx.append (Lx.append .obrace (Lx.indent (level + 1))) .nl) (Lx.indent level)) hx)
        (Lx.indent level)) .cbrace
    · have e : between (ownText bs level) = indent (level + 1) ++ [10] ++ indent level ++ (indentLines (indent level) bs ++ [10]) ++
          indent level := by
        rw [ht]
        simp only [between, List.append_assoc, List.cons_append, List.nil_append, List.drop_one, List.tail_cons]
        simp only [← List.append_assoc, ← List.cons_append, List.dropLast_concat]
      rw [e]
      have := (Lx.append (Lx.append (Lx.append (Lx.append (Lx.indent (level + 1)) .nl) (Lx.indent level)) hx) (Lx.indent level)) []
      simpa [lex, lexEnd, Except.map] using this
    · intro u f' hf
      have := (parseBody_then (top := false) (T := .cbrace :: u) (u := u) (fun g => by simp [parseBody, skipNl]) _ _ _ h3).2 f'
        (by simp at hf; omega)
      simpa using this
    · intro f' hf
      exact (parseBody_then (top := true) (T := []) (u := []) (fun g => by simp [parseBody, skipNl]) _ _ _ h3).2 f'
        (by simp at hf; omega)

/-- The block is an item, whatever is around it. -/
theorem own_item {bs : Bytes} {body : Hcl.Body} (h : parseConfig bs = .ok body) {level : Nat} (hl : 0 < level) {tag : Bytes} (ht : IsIdent tag)
    {labels : List Bytes} (hs : ∀ l ∈ labels, SafeStr l) :
    ItemOk (outLine ⟨tag, labels, ownText bs level, false⟩) (.block tag labels body) := by
  obtain ⟨ts, l1, _, p1, _⟩ := ownText_lex h hl
  obtain ⟨name, h1, h2⟩ := name_labels labels hs (NameOk.ident ht)
  rw [List.nil_append] at h1
  have e : outLine ⟨tag, labels, ownText bs level, false⟩ = name ++ 32 :: ownText bs level := by
    rw [← h2]; simp [outLine]
  rw [e]
  have l2 : Lx (32 :: ownText bs level) (.obrace :: .nl :: ts ++ [.cbrace]) := by simpa using Lx.append .sp l1
  have l3 : LxD (name ++ 32 :: ownText bs level) (.ident tag :: labels.map .str ++ (.obrace :: .nl :: ts ++ [.cbrace])) :=
    LxD.thenD (c := 32) (.inr (.inr (.inl rfl))) h1 l2.lxd
  refine ⟨.ident tag :: labels.map .str ++ (.obrace :: .nl :: ts ++ [.cbrace]), l3, ⟨_, _, rfl⟩, ?_⟩
  intro top f tl rest he hf
  have hq : (.ident tag :: labels.map .str ++ (.obrace :: .nl :: ts ++ [.cbrace])) ++ tl =
      .ident tag :: (labels.map Tok.str ++ .obrace :: (.nl :: (ts ++ .cbrace :: tl))) := by simp
  have hne : ∀ q, labels.map Tok.str ++ Tok.obrace :: (.nl :: (ts ++ .cbrace :: tl)) ≠ .eq :: q := by
    cases labels <;> simp
  rw [hq]
  simp only [List.length_append, List.length_cons, List.length_map, List.length_nil] at hf
  have hb : parseBlock f (.nl :: (ts ++ .cbrace :: tl)) = .ok (body, tl) := by
    obtain ⟨f, rfl⟩ : ∃ g, f = g + 1 := ⟨f - 1, by omega⟩
    simp only [parseBlock]
    exact p1 tl f (by omega)
  cases hr : parseBody top f rest with
  | ok x =>
    exact parseBody_block (inner := (body, tl)) (ls := (labels, _)) rfl hne (parseLabels_ok labels _) hb he hr
  | error x =>
    unfold parseBody
    simp only [skipNl]
    have hp := parseLabels_ok labels (.nl :: (ts ++ .cbrace :: tl))
    cases labels with
    | nil =>
      simp only [List.map_nil, List.nil_append] at hp ⊢
      simp only [hp, hb, Except.bind, he, hr, Except.map]
    | cons l ls =>
      simp only [List.map_cons, List.cons_append] at hp ⊢
      simp only [hp, hb, Except.bind, he, hr, Except.map]

/-- **C105, in part**: the content of the method's text, as far as it is in the subset of HCL of `Model/HclSyntax` (no heredocs,
comments, operators), is the content of the block, and of the text that `UnmarshalHCL` gets. -/
theorem C105_partial {bs : Bytes} {body : Hcl.Body} (h : parseConfig bs = .ok body) {level : Nat} (hl : 0 < level) {tag : Bytes} (ht : IsIdent tag)
    {labels : List Bytes} (hs : ∀ l ∈ labels, SafeStr l) :
    parseConfig (outLine ⟨tag, labels, ownText bs level, false⟩) = .ok (.mk [] [(tag, labels, body)]) ∧
      parseConfig (between (ownText bs level)) = .ok body := by
  constructor
  · have hi := own_item h hl ht hs
    have := parseConfig_lines (.cons hi .nil) (by simp) (by simp [Item.attrs]) 0
    simpa [indent, joinB, Item.attrs, Item.blocks] using this
  · obtain ⟨ts, _, l2, _, p2⟩ := ownText_lex h hl
    unfold parseConfig
    rw [l2]
    simp only [Except.bind]
    have : parseBody true (3 * (Tok.nl :: ts).length + 3) (.nl :: ts) = .ok (body, []) := by
      have hp := p2 (3 * (Tok.nl :: ts).length + 3) (by simp)
      unfold parseBody at hp ⊢
      simpa [skipNl] using hp
    rw [this]
    rfl

/-- Several such values in one struct: each is one block, in order. -/
theorem C105_among (pe : PExt) (os : List (Bytes × List Bytes × Bytes × Hcl.Body))
    (h : ∀ o ∈ os, IsIdent o.1 ∧ (∀ l ∈ o.2.1, SafeStr l) ∧ parseConfig o.2.2.1 = .ok o.2.2.2) :
    parseConfig (structText pe 0 [] (os.map fun o => ⟨o.1, o.2.1, ownText o.2.2.1 1, false⟩)) =
      .ok (.mk [] (os.map fun o => (o.1, o.2.1, o.2.2.2))) := by
  have hitems : List.Forall₂ ItemOk (os.map fun o => outLine ⟨o.1, o.2.1, ownText o.2.2.1 1, false⟩)
      (os.map fun o => .block o.1 o.2.1 o.2.2.2) := by
    induction os with
    | nil => exact .nil
    | cons o os ih =>
      obtain ⟨h1, h2, h3⟩ := h o (by simp)
      exact .cons (own_item h3 (by decide) h1 h2) (ih fun o ho => h o (by simp [ho]))
  have hA : Item.attrs (os.map fun o => Item.block o.1 o.2.1 o.2.2.2) = [] := by
    clear h hitems
    induction os with
    | nil => rfl
    | cons a l ih => simpa [Item.attrs] using ih
  have hB : Item.blocks (os.map fun o => Item.block o.1 o.2.1 o.2.2.2) = os.map fun o => (o.1, o.2.1, o.2.2.2) := by
    clear h hitems hA
    induction os with
    | nil => rfl
    | cons a l ih => simpa [Item.blocks] using ih
  cases os with
  | nil => rfl
  | cons o os =>
    have := parseConfig_lines hitems (by simp) (by rw [hA]; simp) 1
    rw [hA, hB] at this
    rw [← this]
    congr 1
    have tight : Tight (joinB (10 :: indent 1) ((o :: os).map fun o => outLine ⟨o.1, o.2.1, ownText o.2.2.1 1, false⟩)) := by
      apply joinB_ends (by simp)
      intro x hx
      obtain ⟨o, _, rfl⟩ := List.mem_map.1 hx
      unfold outLine
      refine Tight.append ?_ _
      simp only [ownText]
      exact ⟨_, 125, rfl, rfl⟩
    have := (tight.append (indent 1)).trim
    simp only [structText, attrText, List.map_nil, List.flatten_nil, indentLines, List.append_nil, List.map_map, Function.comp_def]
    exact this

/-- At the top the text of the method is the document, byte by byte. -/
theorem C105_root (bs : Bytes) : ownLevel false (.ok bs) 0 = .ok bs := by
  have : ∀ s, indentLines (indent 0) s = s := by
    intro s
    induction s with
    | nil => rfl
    | cons c s ih => unfold indentLines; split <;> simp_all [indent]
  simp [ownLevel, ownText, Except.map, this]

/-- An example: two attributes, one with a list over several lines, and a block. -/
def exOwn : Bytes := b "a = [\n\"u\",\n  true]\nb = \"x y\"\nc \"l\" {\n}"

example : parseConfig exOwn = .ok (.mk [(b "a", .tuple [.str (b "u"), .ident (b "true")]), (b "b", .str (b "x y"))] [(b "c", [b "l"], .mk [] [])]) := by
  rfl

example : 0 < 2 ∧ IsIdent (b "block") ∧ ∀ l ∈ [b "k"], SafeStr l := by
  refine ⟨by decide, ⟨by decide, by decide⟩, ?_⟩
  simp [SafeStr]; decide
example : ownText exOwn 1 = b "{    \n  a = [\n  \"u\",\n    true]\n  b = \"x y\"\n  c \"l\" {\n  }\n  }" := by decide +kernel
/-- A blank text becomes an empty block. -/
example : ownText (b " \n") 1 = b "{    \n  }" := by decide +kernel

/-- **C105 fails for heredocs**: their lines are indented. -/
theorem C105_violated : ∃ bs : Bytes, heredoc bs = some (b "x\n") ∧ heredoc (between (ownText bs 1)) = some (b "  x\n") :=
  ⟨b "a = <<EOT\nx\nEOT\n", by decide +kernel, by decide +kernel⟩

end Verif.HclS
