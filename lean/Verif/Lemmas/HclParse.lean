import Verif.Lemmas.HclLex
import Mathlib.Data.List.Forall2
set_option linter.unusedSimpArgs false
/-! The printed text parses to the tree of the specification. -/
namespace Verif.Hcl

/-- What may follow an expression. -/
def Follow (nls : Bool) (rest : List Tok) : Prop :=
  rest = [] ∨ ∃ t r, peekNl nls rest = t :: r ∧ (t = .comma ∨ t = .cbrack ∨ t = .nl ∨ t = .eq)

/-- How the text of an expression or item may begin. -/
def Head (ts : List Tok) : Prop :=
  ∃ h tl, ts = h :: tl ∧ h ≠ .nl ∧ h ≠ .cbrack ∧ h ≠ .cbrace ∧ h ≠ .ident (b "for")

/-- The text is the expression. -/
def ExprOk (t : Bytes) (e : Expr) : Prop :=
  ∃ ts, LxD t ts ∧ Head ts ∧ ∀ nls f rest, 3 * ts.length ≤ f → Follow nls rest →
    parseExpr nls f (ts ++ rest) = .ok (e, rest)

theorem skipNl_head {ts : List Tok} (h : Head ts) (r : List Tok) : skipNl (ts ++ r) = ts ++ r := by
  obtain ⟨t, tl, rfl, h1, _⟩ := h
  cases t <;> first | rfl | exact absurd rfl h1

theorem peekNl_head {ts : List Tok} (h : Head ts) (nls : Bool) (r : List Tok) : peekNl nls (ts ++ r) = ts ++ r := by
  unfold peekNl; split
  · rfl
  · exact skipNl_head h r

theorem startsFor_head {ts : List Tok} (h : Head ts) (r : List Tok) : startsFor (ts ++ r) = false := by
  unfold startsFor
  rw [skipNl_head h]
  obtain ⟨t, tl, rfl, _, _, _, h4⟩ := h
  cases t <;> first | rfl | (simp only [List.cons_append, decide_eq_false_iff_not]; rintro rfl; exact h4 rfl)

theorem peekNl_open {t : Tok} (h : t ≠ .nl) {nls : Bool} {r : List Tok} : peekNl nls (t :: r) = t :: r := by
  unfold peekNl; split
  · rfl
  · cases t <;> first | rfl | exact absurd rfl h

theorem startsFor_nl (r : List Tok) : startsFor (.nl :: r) = startsFor r := rfl

theorem parseTuple_nl (f : Nat) (r : List Tok) : parseTuple f (.nl :: r) = parseTuple f r := by
  cases f <;> simp only [parseTuple, skipNl]

theorem parseObject_nl (f : Nat) (r : List Tok) : parseObject f (.nl :: r) = parseObject f r := by
  cases f <;> simp only [parseObject, skipNl]

theorem parseBody_nl (top : Bool) (f : Nat) (r : List Tok) : parseBody top f (.nl :: r) = parseBody top f r := by
  cases f <;> simp only [parseBody, skipNl]

theorem endTerm_follow {nls : Bool} {rest : List Tok} (h : Follow nls rest) (e : Expr) :
    endTerm nls e rest = .ok (e, rest) := by
  rcases h with rfl | ⟨t, r, h1, h2⟩
  · cases nls <;> rfl
  unfold endTerm; rw [h1]
  rcases h2 with rfl | rfl | rfl | rfl <;> rfl

theorem identTerm_follow {nls : Bool} {rest : List Tok} (h : Follow nls rest) (n : Bytes) :
    identTerm nls n rest = .ok (.ident n, rest) := by
  have := endTerm_follow h (.ident n)
  rcases h with rfl | ⟨t, r, h1, h2⟩
  · cases nls <;> rfl
  unfold identTerm; rw [h1]
  rcases h2 with rfl | rfl | rfl | rfl <;> exact this

theorem ExprOk.str {s : Bytes} (h : SafeStr s) : ExprOk (34 :: s ++ [34]) (.str s) := by
  refine ⟨[.str s], (Lx.str h).lxd, ⟨_, _, rfl, by simp, by simp, by simp, by simp⟩, ?_⟩
  intro nls f rest hf hr
  match f, hf with
  | f + 1, _ =>
    rw [parseExpr, peekNl_head ⟨_, _, rfl, by simp, by simp, by simp, by simp⟩]
    exact endTerm_follow hr _

theorem ExprOk.num {t : Bytes} {q : Rat} (h : LxD t [.num q]) : ExprOk t (.num q) := by
  refine ⟨[.num q], h, ⟨_, _, rfl, by simp, by simp, by simp, by simp⟩, ?_⟩
  intro nls f rest hf hr
  match f, hf with
  | f + 1, _ =>
    rw [parseExpr, peekNl_head ⟨_, _, rfl, by simp, by simp, by simp, by simp⟩]
    exact endTerm_follow hr _

theorem ExprOk.neg {t : Bytes} {q : Rat} (h : LxD t [.minus, .num q]) : ExprOk t (.neg (.num q)) := by
  refine ⟨_, h, ⟨_, _, rfl, by simp, by simp, by simp, by simp⟩, ?_⟩
  intro nls f rest hf hr
  match f, hf with
  | f + 2, _ =>
    rw [parseExpr, peekNl_head ⟨_, _, rfl, by simp, by simp, by simp, by simp⟩]
    simp only [List.cons_append, List.nil_append]
    rw [parseExpr, show (Tok.num q :: rest) = [.num q] ++ rest from rfl,
      peekNl_head ⟨_, _, rfl, by simp, by simp, by simp, by simp⟩]
    simp only [List.cons_append, List.nil_append, endTerm_follow hr, Except.map]

theorem ExprOk.ident {t n : Bytes} (h : LxD t [.ident n]) (hn : n ≠ b "for") : ExprOk t (.ident n) := by
  have hh : Head [.ident n] := ⟨_, _, rfl, by simp, by simp, by simp, by simpa using hn⟩
  refine ⟨_, h, hh, ?_⟩
  intro nls f rest hf hr
  match f, hf with
  | f + 1, _ =>
    rw [parseExpr, peekNl_head hh]
    exact identTerm_follow hr _

theorem ExprOk.null : ExprOk (b "null()") (.call (b "null")) := by
  have hh : Head [.ident (b "null"), .oparen, .cparen] := ⟨_, _, rfl, by simp, by simp, by simp, by decide⟩
  refine ⟨[.ident (b "null"), .oparen, .cparen], ?_, hh, ?_⟩
  · have h1 : LxD (b "null") [.ident (b "null")] := .ident ⟨by decide, by decide⟩
    exact (LxD.then (t := b "null") (t' := [41]) (c := 40) (.inr (.inr (.inr rfl))) h1
      (Lx.append (t := [40]) .oparen .cparen)).lxd
  · intro nls f rest hf hr
    match f, hf with
    | f + 1, _ =>
      rw [parseExpr, peekNl_head hh]
      simp only [List.cons_append, List.nil_append, identTerm]
      have : peekNl nls (Tok.oparen :: .cparen :: rest) = .oparen :: .cparen :: rest :=
        peekNl_head (ts := [.oparen]) ⟨_, _, rfl, by simp, by simp, by simp, by simp⟩ nls _
      rw [this]
      simp only [skipNl]
      exact endTerm_follow hr _

theorem ExprOk.int (n : Int) : ExprOk (intText n) (intExpr n) := by
  have := LxD.int n
  unfold intToks at this
  unfold intExpr
  split
  · rename_i h; rw [if_pos h] at this; exact .neg this
  · rename_i h; rw [if_neg h] at this; exact .num this

theorem ExprOk.flt (q : Rat) : ExprOk (fltText q) (fltExpr q) := by
  have := LxD.flt q
  unfold fltToks at this
  unfold fltExpr
  simp only at this ⊢
  split
  · rename_i h; rw [if_pos h] at this; exact .neg this
  · rename_i h; rw [if_neg h] at this; exact .num this

/-- Scalars. -/
theorem ExprOk.scalar {v : GV} {x : Except Unit Bytes} {t : Bytes} (hs : ∀ s, v = .str s → SafeStr s)
    (h : scalarText v = some x) (hx : x = .ok t) : ExprOk t (scalarExpr v) := by
  cases v with
  | str s =>
    simp only [scalarText, Option.some.injEq] at h
    subst h; cases hx
    exact .str (hs s rfl)
  | bool v =>
    simp only [scalarText, Option.some.injEq] at h
    subst h; cases hx
    cases v
    · exact .ident (LxD.ident (k := b "false") ⟨by decide, by decide⟩) (by decide)
    · exact .ident (LxD.ident (k := b "true") ⟨by decide, by decide⟩) (by decide)
  | int n =>
    simp only [scalarText, Option.some.injEq] at h
    subst h; cases hx
    exact .int n
  | flt q =>
    simp only [scalarText, Option.some.injEq] at h
    simp only [scalarExpr]
    subst h
    split at hx
    · rename_i n e; cases hx; simp only [e]; exact .int n
    · rename_i n e; cases hx; simp only [e]; exact .flt n
    · cases hx
  | _ => simp [scalarText] at h

/-! ## Lists -/

theorem joinB_cons {sep x : Bytes} {y : Bytes} {r : List Bytes} :
    joinB sep (x :: y :: r) = x ++ sep ++ joinB sep (y :: r) := rfl

theorem joined_tuple (n : Nat) {arr : List Bytes} {es : List Expr} (h : List.Forall₂ ExprOk arr es) (hne : arr ≠ []) :
    ∃ ts, LxD (joinB (44 :: 10 :: indent n) arr) ts ∧ Head ts ∧ ∀ f rest, 3 * ts.length + 1 ≤ f →
      parseTuple f (ts ++ .nl :: .cbrack :: rest) = .ok (es, rest) := by
  induction h with
  | nil => exact absurd rfl hne
  | @cons x e arr es hx hr ih =>
    obtain ⟨ts, l1, h1, p1⟩ := hx
    have tail : ∀ f (r : List Tok), parseTuple (f + 1) (ts ++ r) = (parseExpr false f (ts ++ r)).bind fun x =>
        match skipNl x.2 with
        | .cbrack :: r => .ok ([x.1], r)
        | .comma :: r => (parseTuple f r).map fun y => (x.1 :: y.1, y.2)
        | _ => .error .invalid := by
      intro f r
      rw [parseTuple, skipNl_head h1]
      obtain ⟨t, tl, rfl, _, h2, _⟩ := h1
      cases t <;> first | rfl | exact absurd rfl h2
    cases hr with
    | nil =>
      refine ⟨ts, l1, h1, ?_⟩
      intro f rest hf
      match f, hf with
      | f + 1, hf =>
        rw [tail, p1 false f _ (by omega) (.inr ⟨.cbrack, rest, rfl, by simp⟩)]
        rfl
    | @cons y e' arr es hy hr =>
      obtain ⟨ts', l2, h2, p2⟩ := ih (by simp)
      have l3 : LxD (44 :: 10 :: indent n ++ joinB (44 :: 10 :: indent n) (y :: arr)) ([.comma, .nl] ++ ts') := by
        have : Lx (44 :: 10 :: indent n) [.comma, .nl] := by
          have := Lx.append (Lx.append .comma .nl) (Lx.indent n)
          simpa using this
        exact LxD.append this l2
      refine ⟨ts ++ ([.comma, .nl] ++ ts'), ?_, ?_, ?_⟩
      · rw [joinB_cons, List.append_assoc]
        exact LxD.thenD (c := 44) (.inr (.inl rfl)) l1 l3
      · obtain ⟨t, tl, rfl, h⟩ := h1
        exact ⟨t, _, rfl, h⟩
      · intro f rest hf
        simp only [List.length_append, List.length_cons, List.length_nil] at hf
        match f, hf with
        | f + 1, hf =>
          rw [List.append_assoc, tail, p1 false f _ (by omega) (.inr ⟨.comma, _, rfl, by simp⟩)]
          simp only [Except.bind, List.cons_append, List.nil_append, skipNl]
          rw [parseTuple_nl, p2 f rest (by omega)]
          rfl

theorem tuple_text (level : Nat) {arr : List Bytes} {es : List Expr} (h : List.Forall₂ ExprOk arr es) :
    ∃ ts, Lx (listText level arr) ts ∧ Head ts ∧ ∀ nls f rest, 3 * ts.length ≤ f → Follow nls rest →
      parseExpr nls f (ts ++ rest) = .ok (.tuple es, rest) := by
  have hh : ∀ ts : List Tok, Head (.obrack :: ts) := fun ts => ⟨_, _, rfl, by simp, by simp, by simp, by simp⟩
  have l0 : Lx (91 :: 10 :: indent (level + 1)) [.obrack, .nl] := by
    simpa using Lx.append (Lx.append .obrack .nl) (Lx.indent (level + 1))
  have l1 : Lx (10 :: (indent level ++ [93])) [.nl, .cbrack] := by
    simpa using Lx.append (Lx.append .nl (Lx.indent level)) .cbrack
  cases h with
  | nil =>
    refine ⟨[.obrack, .nl, .nl, .cbrack], ?_, hh _, ?_⟩
    · have := Lx.append l0 l1
      simpa [listText, joinB] using this
    · intro nls f rest hf hr
      match f, hf with
      | f + 2, _ =>
        rw [parseExpr, peekNl_head (hh _)]
        simp only [List.cons_append, List.nil_append, startsFor, skipNl, Bool.false_eq_true, if_false, parseTuple,
          Except.bind]
        exact endTerm_follow hr _
  | @cons x e arr es hx hr' =>
    obtain ⟨ts, l2, h2, p2⟩ := joined_tuple (level + 1) (List.Forall₂.cons hx hr') (by simp)
    refine ⟨[.obrack, .nl] ++ (ts ++ [.nl, .cbrack]), ?_, hh _, ?_⟩
    · have := Lx.append l0 (LxD.then (c := 10) (.inl rfl) l2 l1)
      simpa [listText] using this
    · intro nls f rest hf hr
      simp only [List.length_append, List.length_cons, List.length_nil] at hf
      match f, hf with
      | f + 1, hf =>
        simp only [List.cons_append, List.nil_append, List.append_assoc]
        rw [parseExpr, peekNl_open (by simp)]
        simp only
        rw [startsFor_nl, startsFor_head h2, parseTuple_nl, p2 f rest (by omega)]
        simp only [Bool.false_eq_true, if_false, Except.bind]
        exact endTerm_follow hr _

theorem ExprOk.tuple (level : Nat) {arr : List Bytes} {es : List Expr} (h : List.Forall₂ ExprOk arr es) :
    ExprOk (listText level arr) (.tuple es) := by
  obtain ⟨ts, h1, h2⟩ := tuple_text level h
  exact ⟨ts, h1.lxd, h2⟩

theorem ExprOk.emptyTuple : ExprOk (b "[]") (.tuple []) := by
  have hh : Head [.obrack, .cbrack] := ⟨_, _, rfl, by simp, by simp, by simp, by simp⟩
  refine ⟨_, (Lx.append .obrack .cbrack).lxd, hh, ?_⟩
  intro nls f rest hf hr
  match f, hf with
  | f + 2, _ =>
    rw [parseExpr]
    simp only [List.cons_append, List.nil_append]
    rw [show peekNl nls (Tok.obrack :: .cbrack :: rest) = .obrack :: .cbrack :: rest from peekNl_head hh nls rest]
    simp only [startsFor, skipNl, Bool.false_eq_true, if_false, parseTuple, Except.bind]
    exact endTerm_follow hr _

/-! ## Objects -/

/-- The line is a member of an object. -/
def MemberOk (t : Bytes) (x : Expr × Expr) : Prop :=
  ∃ k t', t = assign k t' ∧ IsIdent k ∧ k ≠ b "for" ∧ x.1 = .ident k ∧ ExprOk t' x.2

theorem assign_lex {k t : Bytes} {ts : List Tok} (hk : LxD k [.ident k]) (ht : LxD t ts) :
    LxD (assign k t) (.ident k :: .eq :: ts) := by
  have h1 : LxD (32 :: 61 :: 32 :: t) (.eq :: ts) := by
    have h0 : Lx [32, 61, 32] [.eq] := by simpa using Lx.append (Lx.append .sp .eq) .sp
    exact LxD.append h0 ht
  exact LxD.thenD (c := 32) (.inr (.inr (.inl rfl))) hk h1

theorem joined_object (n : Nat) {arr : List Bytes} {es : List (Expr × Expr)} (h : List.Forall₂ MemberOk arr es)
    (hne : arr ≠ []) :
    ∃ ts, LxD (joinB (10 :: indent n) arr) ts ∧ Head ts ∧ ∀ f rest, 3 * ts.length + 4 ≤ f →
      parseObject f (ts ++ .nl :: .cbrace :: rest) = .ok (es, rest) := by
  induction h with
  | nil => exact absurd rfl hne
  | @cons x e arr es hx hr ih =>
    obtain ⟨k, t, rfl, hk, hfor, hek, ⟨ts, l1, h1, p1⟩⟩ := hx
    have hh : ∀ r, Head (.ident k :: r) := fun r => ⟨_, _, rfl, by simp, by simp, by simp, by simpa using hfor⟩
    have l0 := assign_lex (LxD.ident hk) l1
    have tail : ∀ f (r : List Tok), 3 * ts.length ≤ f →
        parseObject (f + 3) (.ident k :: .eq :: ts ++ .nl :: r) =
        (parseObject f r).map fun y => (e :: y.1, y.2) := by
      intro f r hf
      rw [parseObject, skipNl_head (hh _)]
      simp only [List.cons_append]
      have hkey : parseExpr true (f + 2) (.ident k :: .eq :: (ts ++ .nl :: r)) =
          .ok (.ident k, .eq :: (ts ++ .nl :: r)) := by
        rw [parseExpr]
        simp only [peekNl, if_true]
        exact identTerm_follow (.inr ⟨.eq, _, rfl, by simp⟩) _
      rw [hkey]
      simp only [Except.bind]
      rw [objValue]
      rw [p1 true (f + 1) _ (by omega) (.inr ⟨.nl, _, rfl, by simp⟩)]
      simp only [Except.bind]
      rw [objNext]
      simp only [← hek]
    cases hr with
    | nil =>
      refine ⟨.ident k :: .eq :: ts, l0, hh _, ?_⟩
      intro f rest hf
      simp only [List.length_cons] at hf
      match f, hf with
      | f + 4, hf =>
        rw [tail (f + 1) _ (by omega), parseObject]
        rfl
    | @cons y e' arr es hy hr =>
      obtain ⟨ts', l2, h2, p2⟩ := ih (by simp)
      refine ⟨.ident k :: .eq :: ts ++ .nl :: ts', ?_, ⟨_, _, rfl, by simp, by simp, by simp, by simpa using hfor⟩, ?_⟩
      · rw [joinB_cons, List.append_assoc]
        refine LxD.thenD (c := 10) (.inl rfl) l0 ?_
        have : Lx (10 :: indent n) [.nl] := by simpa using Lx.append .nl (Lx.indent n)
        exact LxD.append this l2
      · intro f rest hf
        simp only [List.length_append, List.length_cons] at hf
        match f, hf with
        | f + 3, hf =>
          have e : (.ident k :: .eq :: ts ++ .nl :: ts') ++ .nl :: .cbrace :: rest =
            .ident k :: .eq :: ts ++ .nl :: (ts' ++ .nl :: .cbrace :: rest) := by simp
          rw [e, tail f _ (by omega), p2 f rest (by omega)]
          rfl

theorem mapText_pos {level : Nat} (h : level ≠ 0) (arr : List Bytes) : mapText level arr =
    (123 :: 10 :: indent (level + 1)) ++ (joinB (10 :: indent (level + 1)) arr ++ 10 :: (indent level ++ [125])) := by
  simp [mapText, h]

theorem ExprOk.object {level : Nat} (hl : level ≠ 0) {arr : List Bytes} {es : List (Expr × Expr)}
    (h : List.Forall₂ MemberOk arr es) : ExprOk (mapText level arr) (.object es) := by
  have hh : ∀ ts : List Tok, Head (.obrace :: ts) := fun ts => ⟨_, _, rfl, by simp, by simp, by simp, by simp⟩
  have l0 : Lx (123 :: 10 :: indent (level + 1)) [.obrace, .nl] := by
    simpa using Lx.append (Lx.append .obrace .nl) (Lx.indent (level + 1))
  have l1 : Lx (10 :: (indent level ++ [125])) [.nl, .cbrace] := by
    simpa using Lx.append (Lx.append .nl (Lx.indent level)) .cbrace
  rw [mapText_pos hl]
  cases h with
  | nil =>
    refine ⟨[.obrace, .nl, .nl, .cbrace], ?_, hh _, ?_⟩
    · exact (Lx.append l0 l1).lxd
    · intro nls f rest hf hr
      match f, hf with
      | f + 2, _ =>
        rw [parseExpr, peekNl_head (hh _)]
        simp only [List.cons_append, List.nil_append, startsFor, skipNl, Bool.false_eq_true, if_false, parseObject,
          Except.bind]
        exact endTerm_follow hr _
  | @cons x e arr es hx hr' =>
    obtain ⟨ts, l2, h2, p2⟩ := joined_object (level + 1) (List.Forall₂.cons hx hr') (by simp)
    refine ⟨[.obrace, .nl] ++ (ts ++ [.nl, .cbrace]), ?_, hh _, ?_⟩
    · exact (Lx.append l0 (LxD.then (c := 10) (.inl rfl) l2 l1)).lxd
    · intro nls f rest hf hr
      simp only [List.length_append, List.length_cons, List.length_nil] at hf
      match f, hf with
      | f + 1, hf =>
        simp only [List.cons_append, List.nil_append, List.append_assoc]
        rw [parseExpr, peekNl_open (by simp)]
        simp only
        rw [startsFor_nl, startsFor_head h2, parseObject_nl, p2 f rest (by omega)]
        simp only [Bool.false_eq_true, if_false, Except.bind]
        exact endTerm_follow hr _

/-! ## Bodies -/

/-- An attribute or a block. -/
inductive Item where
  | attr (k : Bytes) (e : Expr)
  | block (k : Bytes) (ls : List Bytes) (x : Body)

/-- The parser puts the item in front of the rest of the body. -/
def addItem (x : Body × List Tok) : Item → Except Bad (Body × List Tok)
  | .attr k e => consAttr k e x
  | .block k ls inner => .ok (consBlock k ls inner x)

/-- The line is the item; a newline or the end of the text follows. -/
def ItemOk (t : Bytes) (x : Item) : Prop :=
  ∃ ts, LxD t ts ∧ (∃ k tl, ts = .ident k :: tl) ∧ ∀ top f tl rest, endItem tl = .ok rest → 3 * ts.length ≤ f →
    parseBody top (f + 1) (ts ++ tl) = (parseBody top f rest).bind fun y => addItem y x

theorem endItem_follow {tl rest : List Tok} (h : endItem tl = .ok rest) : Follow true tl := by
  cases tl with
  | nil => exact .inl rfl
  | cons t r =>
    cases t with
    | nl => exact .inr ⟨.nl, r, rfl, by simp⟩
    | _ => cases h

theorem ItemOk.attr {k t : Bytes} {e : Expr} (hk : LxD k [.ident k]) (h : ExprOk t e) : ItemOk (assign k t) (.attr k e) := by
  obtain ⟨ts, l1, h1, p1⟩ := h
  refine ⟨_, assign_lex hk l1, ⟨_, _, rfl⟩, ?_⟩
  intro top f tl rest he hf
  simp only [List.length_cons] at hf
  rw [parseBody]
  simp only [List.cons_append, skipNl]
  rw [p1 true f _ (by omega) (endItem_follow he)]
  simp only [Except.bind, he]
  rfl

/-- The name and labels of a block. -/
def NameOk (name k : Bytes) (ls : List Bytes) : Prop := LxD name (.ident k :: ls.map .str)

theorem NameOk.label {name k l : Bytes} {ls : List Bytes} (h : NameOk name k ls) (hl : SafeStr l) :
    NameOk (name ++ 32 :: 34 :: l ++ [34]) k (ls ++ [l]) := by
  have : LxD (32 :: (34 :: l ++ [34])) [.str l] := LxD.append (t := [32]) .sp (Lx.str hl).lxd
  have := LxD.thenD (c := 32) (.inr (.inr (.inl rfl))) h this
  simpa [NameOk] using this

theorem parseLabels_ok (ls : List Bytes) (r : List Tok) :
    parseLabels (ls.map .str ++ .obrace :: r) = .ok (ls, r) := by
  induction ls with
  | nil => rfl
  | cons l ls ih => simp only [List.map_cons, List.cons_append, parseLabels, ih]; rfl

/-- The lines are parsed one after the other. -/
theorem joined_body (n : Nat) {arr : List Bytes} {es : List Item} (h : List.Forall₂ ItemOk arr es) (hne : arr ≠ []) :
    ∃ ts, LxD (joinB (10 :: indent n) arr) ts ∧ (∃ k tl, ts = .ident k :: tl) ∧ ∀ top f tl rest y,
      endItem tl = .ok rest → (∀ g, 1 ≤ g → parseBody top g rest = .ok y) → 3 * ts.length + 2 ≤ f →
      parseBody top f (ts ++ tl) =
        es.foldr (fun x acc => acc.bind fun y => addItem y x) (.ok y) := by
  induction h with
  | nil => exact absurd rfl hne
  | @cons x e arr es hx hr ih =>
    obtain ⟨ts, l1, h1, p1⟩ := hx
    cases hr with
    | nil =>
      refine ⟨ts, l1, h1, ?_⟩
      intro top f tl rest y he hy hf
      match f, hf with
      | f + 1, hf =>
        rw [p1 top f _ _ he (by omega), hy f (by omega)]
        rfl
    | @cons y e' arr es hy hr =>
      obtain ⟨ts', l2, h2, p2⟩ := ih (by simp)
      refine ⟨ts ++ .nl :: ts', ?_, ?_, ?_⟩
      · rw [joinB_cons, List.append_assoc]
        refine LxD.thenD (c := 10) (.inl rfl) l1 ?_
        have : Lx (10 :: indent n) [.nl] := by simpa using Lx.append .nl (Lx.indent n)
        exact LxD.append this l2
      · obtain ⟨k, tl, rfl⟩ := h1; exact ⟨k, _, rfl⟩
      · intro top f tl rest y he hy hf
        simp only [List.length_append, List.length_cons] at hf
        match f, hf with
        | f + 1, hf =>
          rw [List.append_assoc, List.cons_append, p1 top f _ _ rfl (by omega), p2 top f tl rest y he hy (by omega)]
          rfl

/-- The attributes and blocks of items. -/
def Item.attrs : List Item → List (Bytes × Expr)
  | [] => []
  | .attr k e :: r => (k, e) :: attrs r
  | .block .. :: r => attrs r

def Item.blocks : List Item → List (Bytes × List Bytes × Body)
  | [] => []
  | .attr .. :: r => blocks r
  | .block k ls x :: r => (k, ls, x) :: blocks r

theorem foldItems (es : List Item) (h : ((Item.attrs es).map Prod.fst).Nodup) (r : List Tok) :
    es.foldr (fun x (acc : Except Bad (Body × List Tok)) => acc.bind fun y => addItem y x) (.ok (.mk [] [], r)) =
      .ok (.mk (Item.attrs es) (Item.blocks es), r) := by
  induction es with
  | nil => rfl
  | cons e es ih =>
    cases e with
    | attr k e =>
      simp only [Item.attrs, List.map_cons, List.nodup_cons] at h
      rw [List.foldr_cons, ih h.2]
      exact if_neg h.1
    | block k ls x =>
      simp only [Item.attrs] at h
      rw [List.foldr_cons, ih h]
      simp only [Except.bind, addItem, consBlock, Body.attrs, Item.attrs, Item.blocks, Body.blocks]

theorem ItemOk.block {level : Nat} (hl : level ≠ 0) {name k : Bytes} {ls : List Bytes} (hn : NameOk name k ls)
    {arr : List Bytes} {es : List Item} (h : List.Forall₂ ItemOk arr es) (hd : ((Item.attrs es).map Prod.fst).Nodup) :
    ItemOk (name ++ 32 :: mapText level arr) (.block k ls (.mk (Item.attrs es) (Item.blocks es))) := by
  have l0 : Lx (32 :: (123 :: 10 :: indent (level + 1))) [.obrace, .nl] := by
    simpa using Lx.append .sp (Lx.append (Lx.append .obrace .nl) (Lx.indent (level + 1)))
  have l1 : Lx (10 :: (indent level ++ [125])) [.nl, .cbrace] := by
    simpa using Lx.append (Lx.append .nl (Lx.indent level)) .cbrace
  have hstart : ∀ top f inner, parseBody top (f + 1) (.ident k :: (ls.map Tok.str ++ .obrace :: inner)) =
      (parseBlock f inner).bind fun inner => (endItem inner.2).bind fun r' =>
        (parseBody top f r').map fun x => consBlock k ls inner.1 x := by
    intro top f inner
    have hp := parseLabels_ok ls inner
    rw [parseBody]
    cases ls with
    | nil => simp only [skipNl, List.map_nil, List.nil_append] at hp ⊢; rw [hp]; rfl
    | cons l ls => simp only [skipNl, List.map_cons, List.cons_append] at hp ⊢; rw [hp]; rfl
  have hfin : ∀ top f tl rest, endItem tl = .ok rest → ((endItem tl).bind fun r' =>
      (parseBody top f r').map fun x => consBlock k ls (.mk (Item.attrs es) (Item.blocks es)) x) =
      (parseBody top f rest).bind fun y => addItem y (.block k ls (.mk (Item.attrs es) (Item.blocks es))) := by
    intro top f tl rest he
    simp only [he, Except.bind]
    cases parseBody top f rest <;> rfl
  have hend : ∀ r g, 1 ≤ g → parseBody false g (.cbrace :: r) = .ok (.mk [] [], r) := by
    intro r g hg
    match g, hg with
    | g + 1, _ => rw [parseBody]; simp [skipNl]
  rw [mapText_pos hl]
  cases h with
  | nil =>
    refine ⟨.ident k :: ls.map .str ++ ([.obrace, .nl] ++ [.nl, .cbrace]), ?_, ⟨_, _, rfl⟩, ?_⟩
    · exact LxD.thenD (c := 32) (.inr (.inr (.inl rfl))) hn (Lx.append l0 l1).lxd
    · intro top f tl rest he hf
      simp only [List.length_append, List.length_cons, List.length_nil] at hf
      have e : (.ident k :: ls.map .str ++ ([.obrace, .nl] ++ [.nl, .cbrace])) ++ tl =
          .ident k :: (ls.map Tok.str ++ .obrace :: (.nl :: .nl :: .cbrace :: tl)) := by simp
      rw [e, hstart]
      match f, hf with
      | f + 2, _ =>
        rw [parseBlock]
        rw [parseBody_nl, hend _ _ (by omega)]
        exact hfin _ _ _ _ he
  | @cons x e arr es hx hr' =>
    obtain ⟨ts, l2, h2, p2⟩ := joined_body (level + 1) (List.Forall₂.cons hx hr') (by simp)
    refine ⟨.ident k :: ls.map .str ++ ([.obrace, .nl] ++ (ts ++ [.nl, .cbrace])), ?_, ⟨_, _, rfl⟩, ?_⟩
    · exact LxD.thenD (c := 32) (.inr (.inr (.inl rfl))) hn (Lx.append l0 (LxD.then (c := 10) (.inl rfl) l2 l1)).lxd
    · intro top f tl rest he hf
      simp only [List.length_append, List.length_cons, List.length_nil] at hf
      have e' : (.ident k :: ls.map .str ++ ([.obrace, .nl] ++ (ts ++ [.nl, .cbrace]))) ++ tl =
          .ident k :: (ls.map Tok.str ++ .obrace :: (.nl :: (ts ++ .nl :: .cbrace :: tl))) := by simp
      rw [e', hstart]
      match f, hf with
      | f + 1, hf =>
        rw [parseBlock]
        rw [p2 false f (.nl :: .cbrace :: tl) _ _ rfl (hend _) (by omega), foldItems _ hd]
        exact hfin _ _ _ _ he

/-- The text of a map at level 0 is the body. -/
theorem parseConfig_body {arr : List Bytes} {es : List Item} (h : List.Forall₂ ItemOk arr es)
    (hd : ((Item.attrs es).map Prod.fst).Nodup) :
    parseConfig (mapText 0 arr) = .ok (.mk (Item.attrs es) (Item.blocks es)) := by
  have hend : ∀ g, 1 ≤ g → parseBody true g [] = .ok (.mk [] [], []) := by
    intro g hg
    match g, hg with
    | g + 1, _ => rw [parseBody]; simp [skipNl]
  have l0 : Lx (10 :: indent 1) [.nl] := by simpa using Lx.append .nl (Lx.indent 1)
  have l1 : Lx [10] [.nl] := .nl
  have e0 : mapText 0 arr = (10 :: indent 1) ++ (joinB (10 :: indent 1) arr ++ [10]) := by
    simp [mapText, indent]
  rw [e0]
  unfold parseConfig
  cases h with
  | nil =>
    have := Lx.append l0 l1 []
    simp only [joinB, List.nil_append, List.append_nil] at this ⊢
    rw [this]
    simp only [lex, lexEnd, Except.map, Except.bind, List.append_nil]
    simp only [List.cons_append, List.nil_append]
    rw [parseBody_nl, parseBody_nl, hend _ (by omega)]
    rfl
  | @cons x e arr es hx hr' =>
    obtain ⟨ts, l2, h2, p2⟩ := joined_body 1 (List.Forall₂.cons hx hr') (by simp)
    have := Lx.append l0 (LxD.then (c := 10) (.inl rfl) l2 l1) []
    rw [List.append_nil] at this
    rw [this]
    simp only [lex, lexEnd, Except.map, Except.bind, List.append_nil]
    simp only [List.cons_append, List.nil_append]
    rw [parseBody_nl, p2 true _ [.nl] _ _ rfl hend (by simp; omega), foldItems _ hd]

/-- The text of a list after `x = `. -/
theorem parseConfig_list {level : Nat} {arr : List Bytes} {es : List Expr} (h : List.Forall₂ ExprOk arr es) :
    parseConfig (b "x = " ++ listText level arr) = .ok (.mk [(b "x", .tuple es)] []) := by
  obtain ⟨ts, l1, h1, p1⟩ := tuple_text level h
  have hx : LxD (b "x") [.ident (b "x")] := .ident ⟨by decide, by decide⟩
  have l2 : Lx (b "x = " ++ listText level arr) (.ident (b "x") :: .eq :: ts) := by
    have h0 : Lx [32, 61, 32] [.eq] := by simpa using Lx.append (Lx.append .sp .eq) .sp
    exact LxD.then (t := b "x") (c := 32) (.inr (.inr (.inl rfl))) hx (Lx.append h0 l1)
  have l3 := l2 []
  rw [List.append_nil] at l3
  unfold parseConfig
  rw [l3]
  simp only [lex, lexEnd, Except.map, Except.bind, List.append_nil]
  have hp := p1 true (3 * (Tok.ident (b "x") :: Tok.eq :: ts).length + 2) [] (by simp; omega) (.inl rfl)
  rw [List.append_nil] at hp
  rw [parseBody]
  simp only [skipNl]
  rw [hp]
  simp only [Except.bind, endItem]
  rw [parseBody]
  simp [skipNl, consAttr, Body.attrs, Body.blocks]

end Verif.Hcl
