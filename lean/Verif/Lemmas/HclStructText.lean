import Verif.Spec.HclStructPrint
set_option linter.unusedSimpArgs false
/-! The text of a struct and its tokens. -/

namespace Verif.Hcl

theorem lex_space (t : Bytes) : ∀ s r, lex s (t ++ [32]) = .ok r → lex s t = .ok r := by
  induction t with
  | nil =>
    intro s r h
    cases s <;> simp [lex, lexStep, lexStart, lexStr, lexEnd, identCont, isLetter, isDigit, identStart, Except.bind, Except.map] at h ⊢ <;>
      exact h
  | cons c t ih =>
    intro s r h
    simp only [List.cons_append, lex] at h ⊢
    cases hs : lexStep s c with
    | error e => rw [hs] at h; cases h
    | ok x =>
      rw [hs] at h
      simp only [Except.bind] at h ⊢
      cases hr : lex x.1 (t ++ [32]) with
      | error e => rw [hr] at h; cases h
      | ok y => rw [hr] at h; rw [ih _ _ hr]; exact h

theorem LxD.finish {t : Bytes} {ts : List Tok} (h : LxD t ts) : lex .start t = .ok ts := by
  have := h 32 [] (.inr (.inr (.inl rfl)))
  refine lex_space t _ _ (this.trans ?_)
  simp [lex, lexStep, lexStart, lexEnd, Except.bind, Except.map]

/-- A name or the name of a block that ends in a space. -/
theorem NameOk.ident {k : Bytes} (h : IsIdent k) : NameOk k k [] := LxD.ident h

theorem ItemOk.padded {k t : Bytes} {e : Expr} (p : Nat) (hk : LxD k [.ident k]) (h : ExprOk t e) :
    ItemOk (k ++ List.replicate p 32 ++ (b " = " ++ t)) (.attr k e) := by
  obtain ⟨ts, l1, h1, p1⟩ := h
  have l0 : LxD (k ++ List.replicate p 32 ++ (b " = " ++ t)) (.ident k :: .eq :: ts) := by
    have h0 : Lx [32, 61, 32] [.eq] := by simpa using Lx.append (Lx.append .sp .eq) .sp
    have h2 : LxD (b " = " ++ t) (.eq :: ts) := LxD.append h0 l1
    cases p with
    | zero => rw [List.replicate_zero, List.append_nil]; exact LxD.thenD (c := 32) (.inr (.inr (.inl rfl))) hk h2
    | succ p =>
      rw [List.append_assoc, List.replicate_succ, List.cons_append]
      exact LxD.thenD (c := 32) (.inr (.inr (.inl rfl))) hk (LxD.append (Lx.append Lx.sp (.spaces p)) h2)
  refine ⟨_, l0, ⟨_, _, rfl⟩, ?_⟩
  intro top f tl rest he hf
  simp only [List.length_cons] at hf
  rw [parseBody]
  simp only [List.cons_append, skipNl]
  rw [p1 true f _ (by omega) (endItem_follow he)]
  simp only [Except.bind, he]
  rfl

/-- A block without content. -/
theorem ItemOk.empty {level : Nat} {name k : Bytes} {ls : List Bytes} (hn : NameOk name k ls) :
    ItemOk (name ++ 32 :: 123 :: 10 :: 10 :: (indent level ++ [125])) (.block k ls (.mk [] [])) := by
  have l0 : Lx (32 :: 123 :: 10 :: 10 :: (indent level ++ [125])) [.obrace, .nl, .nl, .cbrace] := by
    simpa using Lx.append (Lx.append (Lx.append (Lx.append (Lx.append .sp .obrace) .nl) .nl) (Lx.indent level)) .cbrace
  refine ⟨.ident k :: ls.map .str ++ [.obrace, .nl, .nl, .cbrace], ?_, ⟨_, _, rfl⟩, ?_⟩
  · exact LxD.thenD (c := 32) (.inr (.inr (.inl rfl))) hn l0.lxd
  · intro top f tl rest he hf
    simp only [List.length_append, List.length_cons, List.length_nil] at hf
    have e : (.ident k :: ls.map .str ++ [.obrace, .nl, .nl, .cbrace]) ++ tl =
        .ident k :: (ls.map Tok.str ++ .obrace :: (.nl :: .nl :: .cbrace :: tl)) := by simp
    have hp := parseLabels_ok ls (.nl :: .nl :: .cbrace :: tl)
    rw [e, parseBody]
    match f, hf with
    | f + 2, _ =>
      cases ls with
      | nil =>
        simp only [skipNl, List.map_nil, List.nil_append] at hp ⊢
        rw [hp]
        simp only [Except.bind, parseBlock, parseBody, skipNl, Bool.false_eq_true, if_false, he]
        cases parseBody top (f + 2) rest <;> rfl
      | cons l ls =>
        simp only [skipNl, List.map_cons, List.cons_append] at hp ⊢
        rw [hp]
        simp only [Except.bind, parseBlock, parseBody, skipNl, Bool.false_eq_true, if_false, he]
        cases parseBody top (f + 2) rest <;> rfl

/-- A document that begins with spaces and ends behind the last line. -/
theorem parseConfig_lines {arr : List Bytes} {es : List Item} (h : List.Forall₂ ItemOk arr es) (hne : arr ≠ [])
    (hd : ((Item.attrs es).map Prod.fst).Nodup) (n : Nat) :
    parseConfig (indent n ++ joinB (10 :: indent n) arr) = .ok (.mk (Item.attrs es) (Item.blocks es)) := by
  have hend : ∀ g, 1 ≤ g → parseBody true g [] = .ok (.mk [] [], []) := by
    intro g hg
    match g, hg with
    | g + 1, _ => rw [parseBody]; simp [skipNl]
  obtain ⟨ts, l2, h2, p2⟩ := joined_body n h hne
  have l3 := (LxD.append (Lx.indent n) l2).finish
  unfold parseConfig
  rw [l3]
  simp only [List.nil_append, Except.bind]
  have := p2 true (3 * ts.length + 3) [] [] _ rfl hend (by omega)
  rw [List.append_nil] at this
  rw [this, foldItems _ hd]
  rfl

end Verif.Hcl

namespace Verif.HclS
open Hcl (indent joinB ItemOk NameOk Item IsIdent SafeStr mapText)

theorem labelText_cons (l : Bytes) (ls : List Bytes) : labelText (l :: ls) = 34 :: l ++ [34, 32] ++ labelText ls := by
  have q : b "\" \"" = [34, 32, 34] := rfl
  have q' : b "\" " = [34, 32] := rfl
  cases ls with
  | nil => simp [labelText, joinB, q']
  | cons l' ls => simp [labelText, joinB, q, q']

theorem labelText_append (a c : List Bytes) : labelText (a ++ c) = labelText a ++ labelText c := by
  induction a with
  | nil => rfl
  | cons l a ih => rw [List.cons_append, labelText_cons, labelText_cons, ih, ← List.append_assoc]

theorem name_labels (ls : List Bytes) (hs : ∀ l ∈ ls, SafeStr l) : ∀ {name k : Bytes} {ls0 : List Bytes}, NameOk name k ls0 →
    ∃ name', NameOk name' k (ls0 ++ ls) ∧ ∀ r, name ++ 32 :: labelText ls ++ r = name' ++ 32 :: r := by
  induction ls with
  | nil => intro name k ls0 h; exact ⟨name, by simpa using h, fun r => by simp [labelText]⟩
  | cons l ls ih =>
    intro name k ls0 h
    obtain ⟨name', h1, h2⟩ := ih (fun x hx => hs x (by simp [hx])) (h.label (hs l (by simp)))
    refine ⟨name', by simpa using h1, fun r => ?_⟩
    rw [← h2, labelText_cons]
    simp

/-- What is between the braces: nothing, or the lines. -/
def bodyText (level : Nat) (lines : List Bytes) : Bytes :=
  if lines = [] then [] else indent (level + 1) ++ joinB (10 :: indent (level + 1)) lines

theorem block_item {level : Nat} (hl : level ≠ 0) {tag : Bytes} (ht : IsIdent tag) {labels : List Bytes} (hs : ∀ l ∈ labels, SafeStr l)
    {lines : List Bytes} {es : List Item} (h : List.Forall₂ ItemOk lines es) (hd : ((Item.attrs es).map Prod.fst).Nodup) :
    ItemOk (tag ++ 32 :: labelText labels ++ (b "{\n" ++ bodyText level lines ++ 10 :: indent level ++ b "}"))
      (.block tag labels (.mk (Item.attrs es) (Item.blocks es))) := by
  obtain ⟨name, h1, h2⟩ := name_labels labels hs (NameOk.ident ht)
  rw [h2]
  rw [List.nil_append] at h1
  cases h with
  | nil =>
    have := ItemOk.empty (level := level) h1
    have q : b "{\n" = [123, 10] := rfl
    have q' : b "}" = [125] := rfl
    simpa [bodyText, q, q', Item.attrs, Item.blocks] using this
  | @cons x e arr es hx hr =>
    have := ItemOk.block hl h1 (.cons hx hr) hd
    have e : (b "{\n" ++ bodyText level (x :: arr) ++ 10 :: indent level ++ b "}") = mapText level (x :: arr) := by
      rw [Hcl.mapText_pos hl]
      simp only [bodyText]
      rw [if_neg (by simp)]
      have q : b "{\n" = [123, 10] := rfl
      have q' : b "}" = [125] := rfl
      simp [q, q']
    rw [e]
    exact this

/-! ## Trimming -/

theorem trimRight_end (s : Bytes) {c : UInt8} (h : isBlankB c = false) : trimRight (s ++ [c]) = s ++ [c] := by
  simp [trimRight, h]

theorem trimRight_blank (s : Bytes) {t : Bytes} (h : ∀ c ∈ t, isBlankB c = true) : trimRight (s ++ t) = trimRight s := by
  simp only [trimRight, List.reverse_append]
  rw [List.dropWhile_append_of_pos]
  intro c hc
  exact h c (List.mem_reverse.1 hc)

/-- The text does not end in white space. -/
def Tight (t : Bytes) : Prop := ∃ s c, t = s ++ [c] ∧ isBlankB c = false

theorem Tight.append {t : Bytes} (h : Tight t) (s : Bytes) : Tight (s ++ t) := by
  obtain ⟨r, c, rfl, hc⟩ := h
  exact ⟨s ++ r, c, by simp, hc⟩

theorem Tight.trim {t : Bytes} (h : Tight t) : trimRight t = t := by
  obtain ⟨r, c, rfl, hc⟩ := h
  exact trimRight_end r hc

theorem Tight.notBlank {t : Bytes} (h : Tight t) : isBlank t = false := by
  obtain ⟨r, c, rfl, hc⟩ := h
  simp [isBlank, hc]

theorem joinB_ends {sep : Bytes} {l : List Bytes} (hne : l ≠ []) (h : ∀ x ∈ l, Tight x) : Tight (joinB sep l) := by
  induction l with
  | nil => exact absurd rfl hne
  | cons x l ih =>
    cases l with
    | nil => exact h x (by simp)
    | cons y l =>
      simp only [joinB]
      exact (ih (by simp) (fun z hz => h z (by simp [hz]))).append _

theorem indentLines_append (lead s t : Bytes) : indentLines lead (s ++ t) = indentLines lead s ++ indentLines lead t := by
  induction s with
  | nil => rfl
  | cons c s ih =>
    simp only [List.cons_append, indentLines]
    split <;> simp [ih]

theorem indentLines_id (lead : Bytes) {s : Bytes} (h : 10 ∉ s) : indentLines lead s = s := by
  induction s with
  | nil => rfl
  | cons c s ih =>
    simp only [List.mem_cons, not_or] at h
    rw [indentLines, if_neg (fun e => h.1 e.symm), ih h.2]

theorem joinB_append {sep : Bytes} {x y : List Bytes} (hx : x ≠ []) (hy : y ≠ []) : joinB sep (x ++ y) = joinB sep x ++ sep ++ joinB sep y := by
  induction x with
  | nil => exact absurd rfl hx
  | cons a x ih =>
    cases x with
    | nil =>
      cases y with
      | nil => exact absurd rfl hy
      | cons c y => simp [joinB]
    | cons d x =>
      simp only [List.cons_append, joinB] at ih ⊢
      rw [ih (by simp)]
      simp

/-- The lines of the attributes, each but the last followed by a newline. -/
def attrLine' (pad : Bytes → Nat) (a : Bytes × Bytes) : Bytes := a.1 ++ List.replicate (pad a.1) 32 ++ (b " = " ++ a.2)

theorem attr_lines (lead : Bytes) (pad : Bytes → Nat) (attrs : List (Bytes × Bytes)) (hne : attrs ≠ []) :
    indentLines lead ((attrs.map (attrLine pad)).flatten) =
      joinB (10 :: lead) (attrs.map fun a => indentLines lead (attrLine' pad a)) ++ 10 :: lead := by
  have h1 : ∀ a, indentLines lead (attrLine pad a) = indentLines lead (attrLine' pad a) ++ 10 :: lead := by
    intro a
    have e : attrLine pad a = attrLine' pad a ++ [10] := by simp [attrLine, attrLine']
    rw [e, indentLines_append]
    simp [indentLines]
  induction attrs with
  | nil => exact absurd rfl hne
  | cons a l ih =>
    cases l with
    | nil => simp only [List.map_cons, List.map_nil, List.flatten_cons, List.flatten_nil, List.append_nil, h1, joinB]
    | cons a' l =>
      rw [List.map_cons, List.flatten_cons, indentLines_append, ih (by simp), h1]
      simp only [List.map_cons, joinB]
      simp

theorem blank_lead (n : Nat) : ∀ c ∈ indent n, isBlankB c = true := by
  intro c hc
  rw [List.eq_of_mem_replicate hc]
  rfl

/-- The text of a struct is its lines. -/
theorem structText_eq (pe : PExt) (level : Nat) (attrs : List (Bytes × Bytes)) (outs : List POut)
    (ha : ∀ a ∈ attrs, Tight (indentLines (indent (level + 1)) (attrLine' (pe.pad attrs) a))) (ho : ∀ o ∈ outs, Tight (outLine o)) :
    structText pe level attrs outs =
      bodyText level (attrs.map (fun a => indentLines (indent (level + 1)) (attrLine' (pe.pad attrs) a)) ++ outs.map outLine) := by
  have hbl := blank_lead (level + 1)
  have ha' : ∀ x ∈ attrs.map (fun a => indentLines (indent (level + 1)) (attrLine' (pe.pad attrs) a)), Tight x := by
    intro x hx
    obtain ⟨a, h, rfl⟩ := List.mem_map.1 hx
    exact ha a h
  have ho' : ∀ x ∈ outs.map outLine, Tight x := by
    intro x hx
    obtain ⟨a, h, rfl⟩ := List.mem_map.1 hx
    exact ho a h
  simp only [structText, attrText, bodyText]
  by_cases h1 : attrs = []
  · subst h1
    simp only [List.map_nil, List.flatten_nil, indentLines, List.append_nil, List.nil_append]
    by_cases h2 : outs = []
    · subst h2
      simp only [List.map_nil, joinB, List.append_nil, if_true]
      have := trimRight_blank [] hbl
      rw [List.nil_append] at this
      rw [this]
      rfl
    · rw [if_neg (by simpa using h2)]
      exact ((joinB_ends (by simpa using h2) ho').append _).trim
  · rw [attr_lines _ _ _ h1]
    have hne : attrs.map (fun a => indentLines (indent (level + 1)) (attrLine' (pe.pad attrs) a)) ≠ [] := by simpa using h1
    rw [if_neg (by simp [h1])]
    by_cases h2 : outs = []
    · subst h2
      simp only [List.map_nil, joinB, List.append_nil]
      rw [← List.append_assoc, trimRight_blank]
      · exact ((joinB_ends hne ha').append _).trim
      · intro c hc
        rcases List.mem_cons.1 hc with rfl | hc
        · rfl
        · exact hbl c hc
    · have hne2 : outs.map outLine ≠ [] := by simpa using h2
      rw [joinB_append hne hne2]
      have := ((joinB_ends (sep := 10 :: indent (level + 1)) hne2 ho').append
        (indent (level + 1) ++ (joinB (10 :: indent (level + 1)) (attrs.map fun a => indentLines (indent (level + 1)) (attrLine' (pe.pad attrs) a)) ++
          10 :: indent (level + 1)))).trim
      simpa using this

end Verif.HclS
