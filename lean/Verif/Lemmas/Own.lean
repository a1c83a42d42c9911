import Verif.Lemmas.HclStructText
import Verif.Lemmas.HclBack
/-! Texts with more white space, and texts within blocks. -/
namespace Verif.Hcl

/-! ## Tokens -/

/-- After a newline the lexer starts anew. -/
theorem lexStep_nl {s : LState} {x : LState × List Tok} (h : lexStep s 10 = .ok x) : x.1 = .start := by
  cases s <;> simp [lexStep, lexStart, lexStr, identCont, isLetter, isDigit, identStart, Except.map] at h <;> subst h <;> rfl

/-- A newline ends what the end of the text ends. -/
theorem lexStep_end {s : LState} {ts : List Tok} (h : lexEnd s = .ok ts) : lexStep s 10 = .ok (.start, ts ++ [.nl]) := by
  cases s <;> simp [lexEnd] at h <;> subst h <;>
    simp [lexStep, lexStart, identCont, isLetter, isDigit, identStart, Except.map]

/-- Spaces after the newlines do not change the tokens. -/
theorem lex_indentLines (n : Nat) (t : Bytes) : ∀ s ts, lex s t = .ok ts → lex s (HclS.indentLines (indent n) t) = .ok ts := by
  induction t with
  | nil => intro s ts h; exact h
  | cons c t ih =>
    intro s ts h
    simp only [lex] at h
    obtain ⟨x, h1, h2⟩ := Except.bind_ok' h
    obtain ⟨ts', h3, h4⟩ := Except.map_ok' h2
    unfold HclS.indentLines
    split
    · next hc =>
      subst hc
      have hx := lexStep_nl h1
      have hs := ih _ _ h3
      simp only [List.cons_append, lex, h1, Except.bind]
      rw [hx] at hs ⊢
      rw [Lx.indent n, hs]
      simp [Except.map, h4]
    · simp only [lex, h1, Except.bind, ih _ _ h3, Except.map, h4]

/-- A text, a newline and another text. -/
theorem lex_then_nl (t r : Bytes) : ∀ s ts, lex s t = .ok ts → lex s (t ++ 10 :: r) = (lex .start r).map (ts ++ .nl :: ·) := by
  induction t with
  | nil =>
    intro s ts h
    simp only [List.nil_append, lex] at h ⊢
    rw [lexStep_end h]
    simp [Except.bind]
  | cons c t ih =>
    intro s ts h
    simp only [List.cons_append, lex] at h ⊢
    obtain ⟨x, h1, h2⟩ := Except.bind_ok' h
    obtain ⟨ts', h3, h4⟩ := Except.map_ok' h2
    simp only [h1, Except.bind, ih _ _ h3, Except.map_map']
    subst h4
    simp

/-! ## What follows an expression -/

theorem skipNl_append {ts x : List Tok} (h : skipNl ts ≠ []) : skipNl (ts ++ x) = skipNl ts ++ x := by
  induction ts with
  | nil => exact absurd rfl h
  | cons c ts ih =>
    cases c <;> first | rfl | exact ih h

theorem skipNl_append_nil {ts x : List Tok} (h : skipNl ts = []) : skipNl (ts ++ x) = skipNl x := by
  induction ts with
  | nil => rfl
  | cons c ts ih =>
    cases c <;> first | exact ih h | cases h

/-- What follows can be seen: it begins with a newline, which counts, or something else comes before it. -/
def Apart (nls : Bool) (r x : List Tok) : Prop := (nls = true ∧ ∃ y, x = .nl :: y) ∨ skipNl r ≠ []

theorem peek_apart {nls : Bool} {r x : List Tok} (h : Apart nls r x) : (peekNl nls r = [] ∧ ∃ y, peekNl nls (r ++ x) = .nl :: y) ∨
    (peekNl nls r ≠ [] ∧ peekNl nls (r ++ x) = peekNl nls r ++ x) := by
  cases nls with
  | true =>
    simp only [peekNl, if_true]
    cases r with
    | cons c r => exact .inr ⟨by simp, by simp⟩
    | nil =>
      rcases h with ⟨_, y, rfl⟩ | h
      · exact .inl ⟨rfl, y, rfl⟩
      · exact absurd rfl h
  | false =>
    rcases h with ⟨h, _⟩ | h
    · cases h
    · simp only [peekNl, Bool.false_eq_true, if_false]
      exact .inr ⟨h, skipNl_append h⟩

theorem endTerm_append {nls : Bool} {e e' : Expr} {ts r x : List Tok} (h : endTerm nls e ts = .ok (e', r)) (ha : Apart nls r x) :
    endTerm nls e (ts ++ x) = .ok (e', r ++ x) := by
  have hr : e' = e ∧ r = ts := by
    unfold endTerm at h
    split at h <;> cases h
    exact ⟨rfl, rfl⟩
  obtain ⟨rfl, rfl⟩ := hr
  unfold endTerm at h ⊢
  rcases peek_apart ha with ⟨h1, y, h2⟩ | ⟨h1, h2⟩
  · rw [h2]
  · rw [h2]
    cases hp : peekNl nls r with
    | nil => exact absurd hp h1
    | cons c l =>
      rw [hp] at h
      cases c <;> first | rfl | cases h

theorem endTerm_rest {nls : Bool} {e e' : Expr} {ts r : List Tok} (h : endTerm nls e ts = .ok (e', r)) : r = ts ∧ e' = e := by
  unfold endTerm at h
  split at h <;> cases h
  exact ⟨rfl, rfl⟩

theorem peek_append {nls : Bool} {ts x : List Tok} (h : peekNl nls ts ≠ []) : peekNl nls (ts ++ x) = peekNl nls ts ++ x := by
  cases nls with
  | true => rfl
  | false => exact skipNl_append h

theorem skipNl_of_head {c : Tok} {r : List Tok} (h : c ≠ .nl) : skipNl (c :: r) = c :: r := by
  cases c <;> first | rfl | exact absurd rfl h

theorem identTerm_append {nls : Bool} {n : Bytes} {e : Expr} {ts r x : List Tok} (h : identTerm nls n ts = .ok (e, r)) (ha : Apart nls r x) :
    identTerm nls n (ts ++ x) = .ok (e, r ++ x) := by
  unfold identTerm at h ⊢
  cases hp : peekNl nls ts with
  | nil =>
    rw [hp] at h
    simp only at h
    obtain ⟨rfl, rfl⟩ := endTerm_rest h
    rcases peek_apart ha with ⟨_, y, h2⟩ | ⟨h1, _⟩
    · rw [h2]; exact endTerm_append h ha
    · exact absurd hp h1
  | cons c l =>
    rw [peek_append (by rw [hp]; simp), hp, List.cons_append]
    rw [hp] at h
    by_cases hc : c = .oparen
    · subst hc
      simp only at h ⊢
      cases hs : skipNl l with
      | nil => rw [hs] at h; cases h
      | cons d l' =>
        rw [hs] at h
        rw [skipNl_append (by rw [hs]; simp), hs, List.cons_append]
        cases d <;> first | exact endTerm_append h ha | cases h
    · have h' : endTerm nls (.ident n) ts = .ok (e, r) := by
        cases c <;> first | exact h | exact absurd rfl hc
      have := endTerm_append h' ha
      cases c <;> first | exact this | exact absurd rfl hc

theorem startsFor_append {ts x : List Tok} (h : skipNl ts ≠ []) : startsFor (ts ++ x) = startsFor ts := by
  unfold startsFor
  rw [skipNl_append h]
  cases hs : skipNl ts with
  | nil => exact absurd hs h
  | cons c l => cases c <;> rfl

theorem parseExpr_nil {nls : Bool} {f : Nat} {ts : List Tok} {y} (h : parseExpr nls f ts = .ok y) : peekNl nls ts ≠ [] := by
  intro hn
  cases f with
  | zero => simp [parseExpr] at h
  | succ f => simp [parseExpr, hn] at h

theorem parseTuple_nil {f : Nat} {ts : List Tok} {y} (h : parseTuple f ts = .ok y) : skipNl ts ≠ [] := by
  intro hn
  cases f with
  | zero => simp [parseTuple] at h
  | succ f =>
    simp only [parseTuple, hn] at h
    obtain ⟨a, h1, _⟩ := Except.bind_ok' h
    exact parseExpr_nil h1 rfl

theorem parseObject_nil {f : Nat} {ts : List Tok} {y} (h : parseObject f ts = .ok y) : skipNl ts ≠ [] := by
  intro hn
  cases f with
  | zero => simp [parseObject] at h
  | succ f =>
    simp only [parseObject, hn] at h
    obtain ⟨a, h1, _⟩ := Except.bind_ok' h
    exact parseExpr_nil h1 rfl

theorem objValue_nil {f : Nat} {k : Expr} {ts : List Tok} {y} (h : objValue f k ts = .ok y) : skipNl ts ≠ [] := by
  cases f with
  | zero => simp [objValue] at h
  | succ f =>
    cases ts with
    | nil => simp [objValue] at h
    | cons c r => cases c <;> first | (simp [objValue] at h; done) | simp [skipNl]

theorem objNext_nil {f : Nat} {k v : Expr} {ts : List Tok} {y} (h : objNext f k v ts = .ok y) : skipNl ts ≠ [] := by
  cases f with
  | zero => simp [objNext] at h
  | succ f =>
    cases ts with
    | nil => simp [objNext] at h
    | cons c r =>
      cases c
      case nl =>
        simp only [objNext] at h
        obtain ⟨a, h1, _⟩ := Except.map_ok' h
        show skipNl r ≠ []
        exact parseObject_nil h1
      all_goals first | (simp [objNext] at h; done) | simp [skipNl]

/-- The parser of expressions does not look behind what it has read. -/
theorem parse_append (x : List Tok) : ∀ f,
    (∀ nls ts e r, parseExpr nls f ts = .ok (e, r) → Apart nls r x → ∀ f', f ≤ f' → parseExpr nls f' (ts ++ x) = .ok (e, r ++ x)) ∧
    (∀ ts e r, parseTuple f ts = .ok (e, r) → ∀ f', f ≤ f' → parseTuple f' (ts ++ x) = .ok (e, r ++ x)) ∧
    (∀ ts e r, parseObject f ts = .ok (e, r) → ∀ f', f ≤ f' → parseObject f' (ts ++ x) = .ok (e, r ++ x)) ∧
    (∀ k ts e r, objValue f k ts = .ok (e, r) → ∀ f', f ≤ f' → objValue f' k (ts ++ x) = .ok (e, r ++ x)) ∧
    (∀ k v ts e r, objNext f k v ts = .ok (e, r) → ∀ f', f ≤ f' → objNext f' k v (ts ++ x) = .ok (e, r ++ x)) := by
  intro f
  induction f with
  | zero => refine ⟨?_, ?_, ?_, ?_, ?_⟩ <;> intros <;> simp_all [parseExpr, parseTuple, parseObject, objValue, objNext]
  | succ f ih =>
    obtain ⟨ihE, ihT, ihO, ihV, ihN⟩ := ih
    refine ⟨?_, ?_, ?_, ?_, ?_⟩
    · intro nls ts e r h ha f' hf
      obtain ⟨f', rfl⟩ : ∃ g, f' = g + 1 := ⟨f' - 1, by omega⟩
      have hf : f ≤ f' := by omega
      have hne := parseExpr_nil h
      unfold parseExpr at h ⊢
      rw [peek_append hne]
      cases hp : peekNl nls ts with
      | nil => exact absurd hp hne
      | cons c l =>
        rw [hp] at h
        rw [List.cons_append]
        cases c
        case str s => exact endTerm_append h ha
        case num q => exact endTerm_append h ha
        case ident n => exact identTerm_append h ha
        case minus =>
          simp only at h ⊢
          obtain ⟨y, h1, h2⟩ := Except.map_ok' h
          cases h2
          rw [ihE _ _ _ _ h1 ha f' hf]
          rfl
        case obrack =>
          simp only at h ⊢
          split at h
          · cases h
          · next hs =>
            obtain ⟨y, h1, h2⟩ := Except.bind_ok' h
            rw [startsFor_append (parseTuple_nil h1), if_neg hs, ihT _ _ _ h1 f' hf]
            exact endTerm_append h2 ha
        case obrace =>
          simp only at h ⊢
          split at h
          · cases h
          · next hs =>
            obtain ⟨y, h1, h2⟩ := Except.bind_ok' h
            rw [startsFor_append (parseObject_nil h1), if_neg hs, ihO _ _ _ h1 f' hf]
            exact endTerm_append h2 ha
        all_goals cases h
    · intro ts e r h f' hf
      obtain ⟨f', rfl⟩ : ∃ g, f' = g + 1 := ⟨f' - 1, by omega⟩
      have hf : f ≤ f' := by omega
      have hne := parseTuple_nil h
      unfold parseTuple at h ⊢
      rw [skipNl_append hne]
      have key : ∀ l, skipNl ts = l →
          ((parseExpr false f l).bind fun x => match skipNl x.2 with
            | .cbrack :: r => .ok ([x.1], r)
            | .comma :: r => (parseTuple f r).map fun y => (x.1 :: y.1, y.2)
            | _ => .error .invalid) = .ok (e, r) →
          ((parseExpr false f' (l ++ x)).bind fun x => match skipNl x.2 with
            | .cbrack :: r => .ok ([x.1], r)
            | .comma :: r => (parseTuple f' r).map fun y => (x.1 :: y.1, y.2)
            | _ => .error .invalid) = .ok (e, r ++ x) := by
        intro l _ h
        obtain ⟨y, h1, h2⟩ := Except.bind_ok' h
        have hy : skipNl y.2 ≠ [] := by
          intro hn; rw [hn] at h2; cases h2
        rw [ihE _ _ y.1 y.2 h1 (.inr hy) f' hf]
        simp only [Except.bind]
        rw [skipNl_append hy]
        cases hs : skipNl y.2 with
        | nil => exact absurd hs hy
        | cons c l' =>
          rw [hs] at h2
          cases c
          case cbrack => cases h2; rfl
          case comma =>
            simp only [List.cons_append] at h2 ⊢
            obtain ⟨z, h3, h4⟩ := Except.map_ok' h2
            cases h4
            rw [ihT _ _ _ h3 f' hf]; rfl
          all_goals cases h2
      cases hp : skipNl ts with
      | nil => exact absurd hp hne
      | cons c l =>
        rw [hp] at h
        have := key _ hp
        cases c
        case cbrack => cases h; rfl
        all_goals exact this h
    · intro ts e r h f' hf
      obtain ⟨f', rfl⟩ : ∃ g, f' = g + 1 := ⟨f' - 1, by omega⟩
      have hf : f ≤ f' := by omega
      have hne := parseObject_nil h
      unfold parseObject at h ⊢
      rw [skipNl_append hne]
      have key : ∀ l, ((parseExpr true f l).bind fun k => objValue f k.1 k.2) = .ok (e, r) →
          ((parseExpr true f' (l ++ x)).bind fun k => objValue f' k.1 k.2) = .ok (e, r ++ x) := by
        intro l h
        obtain ⟨y, h1, h2⟩ := Except.bind_ok' h
        rw [ihE _ _ y.1 y.2 h1 (.inr (objValue_nil h2)) f' hf]
        exact ihV _ _ _ _ h2 f' hf
      cases hp : skipNl ts with
      | nil => exact absurd hp hne
      | cons c l =>
        rw [hp] at h
        have := key (c :: l)
        cases c
        case cbrace => cases h; rfl
        all_goals exact this h
    · intro k ts e r h f' hf
      obtain ⟨f', rfl⟩ : ∃ g, f' = g + 1 := ⟨f' - 1, by omega⟩
      have hf : f ≤ f' := by omega
      unfold objValue at h ⊢
      have key : ∀ l, ((parseExpr true f l).bind fun v => objNext f k v.1 v.2) = .ok (e, r) →
          ((parseExpr true f' (l ++ x)).bind fun v => objNext f' k v.1 v.2) = .ok (e, r ++ x) := by
        intro l h
        obtain ⟨y, h1, h2⟩ := Except.bind_ok' h
        rw [ihE _ _ y.1 y.2 h1 (.inr (objNext_nil h2)) f' hf]
        exact ihN _ _ _ _ _ h2 f' hf
      cases ts with
      | nil => cases h
      | cons c l =>
        cases c
        case eq => exact key l h
        case colon => exact key l h
        all_goals cases h
    · intro k v ts e r h f' hf
      obtain ⟨f', rfl⟩ : ∃ g, f' = g + 1 := ⟨f' - 1, by omega⟩
      have hf : f ≤ f' := by omega
      unfold objNext at h ⊢
      have key : ∀ l, ((parseObject f l).map fun y => ((k, v) :: y.1, y.2)) = .ok (e, r) →
          ((parseObject f' (l ++ x)).map fun y => ((k, v) :: y.1, y.2)) = .ok (e, r ++ x) := by
        intro l h
        obtain ⟨y, h1, h2⟩ := Except.map_ok' h
        cases h2
        rw [ihO _ _ _ h1 f' hf]; rfl
      cases ts with
      | nil => cases h
      | cons c l =>
        cases c
        case cbrace => cases h; rfl
        case comma => exact key l h
        case nl => exact key l h
        all_goals cases h

/-! ## Bodies -/

theorem parseLabels_append (x : List Tok) : ∀ ts ls r, parseLabels ts = .ok (ls, r) → parseLabels (ts ++ x) = .ok (ls, r ++ x) := by
  intro ts
  induction ts with
  | nil => intro ls r h; cases h
  | cons c ts ih =>
    intro ls r h
    cases c
    case obrace => cases h; rfl
    case str s =>
      simp only [parseLabels, List.cons_append] at h ⊢
      obtain ⟨y, h1, h2⟩ := Except.map_ok' h
      cases h2
      rw [ih _ _ h1]; rfl
    case ident s =>
      simp only [parseLabels, List.cons_append] at h ⊢
      obtain ⟨y, h1, h2⟩ := Except.map_ok' h
      cases h2
      rw [ih _ _ h1]; rfl
    all_goals cases h

theorem parseBody_nil {f : Nat} {ts : List Tok} {y} (h : parseBody false f ts = .ok y) : skipNl ts ≠ [] := by
  intro hn
  cases f with
  | zero => simp [parseBody] at h
  | succ f => simp [parseBody, hn] at h

theorem endItem_append {ts r x : List Tok} (h : endItem ts = .ok r) (hr : skipNl r ≠ []) : endItem (ts ++ x) = .ok (r ++ x) := by
  cases ts with
  | nil => cases h; exact absurd rfl hr
  | cons c ts =>
    cases c
    case nl => cases h; rfl
    all_goals cases h

theorem endItem_skip {ts r : List Tok} (h : endItem ts = .ok r) : skipNl ts = skipNl r := by
  cases ts with
  | nil => cases h; rfl
  | cons c ts =>
    cases c
    case nl => cases h; rfl
    all_goals cases h

/-- The branches of `parseBody`. -/
theorem parseBody_cases {top : Bool} {f : Nat} {ts : List Tok} {y : Body × List Tok} (h : parseBody top (f + 1) ts = .ok y) :
    (skipNl ts = [] ∧ top = true ∧ y = (.mk [] [], [])) ∨
    (∃ r, skipNl ts = .cbrace :: r ∧ top = false ∧ y = (.mk [] [], r)) ∨
    (∃ n r e r' x, skipNl ts = .ident n :: .eq :: r ∧ parseExpr true f r = .ok e ∧ endItem e.2 = .ok r' ∧
      parseBody top f r' = .ok x ∧ consAttr n e.1 x = .ok y) ∨
    (∃ n r ls inner r' x, skipNl ts = .ident n :: r ∧ (∀ q, r ≠ .eq :: q) ∧ parseLabels r = .ok ls ∧ parseBlock f ls.2 = .ok inner ∧
      endItem inner.2 = .ok r' ∧ parseBody top f r' = .ok x ∧ y = consBlock n ls.1 inner.1 x) := by
  unfold parseBody at h
  split at h
  · next hs =>
    cases top with
    | true => cases h; exact .inl ⟨hs, rfl, rfl⟩
    | false => cases h
  · next r hs =>
    cases top with
    | true => cases h
    | false => cases h; exact .inr (.inl ⟨r, hs, rfl, rfl⟩)
  · next n r hs =>
    obtain ⟨e, h1, h2⟩ := Except.bind_ok' h
    obtain ⟨r', h3, h4⟩ := Except.bind_ok' h2
    obtain ⟨x, h5, h6⟩ := Except.bind_ok' h4
    exact .inr (.inr (.inl ⟨n, r, e, r', x, hs, h1, h3, h5, h6⟩))
  · next n r hne hs =>
    obtain ⟨ls, h1, h2⟩ := Except.bind_ok' h
    obtain ⟨inner, h3, h4⟩ := Except.bind_ok' h2
    obtain ⟨r', h5, h6⟩ := Except.bind_ok' h4
    obtain ⟨x, h7, h8⟩ := Except.map_ok' h6
    exact .inr (.inr (.inr ⟨n, r, ls, inner, r', x, hs, fun q hq => hne q hq, h1, h3, h5, h7, h8.symm⟩))
  · cases h

theorem parseBody_attr {top : Bool} {f : Nat} {ts r r' : List Tok} {n : Bytes} {e : Expr × List Tok} {x y : Body × List Tok}
    (hs : skipNl ts = .ident n :: .eq :: r) (h1 : parseExpr true f r = .ok e) (h2 : endItem e.2 = .ok r')
    (h3 : parseBody top f r' = .ok x) (h4 : consAttr n e.1 x = .ok y) : parseBody top (f + 1) ts = .ok y := by
  unfold parseBody
  simp only [hs, h1, h2, h3, Except.bind, h4]

theorem parseBody_block {top : Bool} {f : Nat} {ts r r' : List Tok} {n : Bytes} {ls : List Bytes × List Tok} {inner x : Body × List Tok}
    (hs : skipNl ts = .ident n :: r) (hne : ∀ q, r ≠ .eq :: q) (h1 : parseLabels r = .ok ls) (h2 : parseBlock f ls.2 = .ok inner)
    (h3 : endItem inner.2 = .ok r') (h4 : parseBody top f r' = .ok x) : parseBody top (f + 1) ts = .ok (consBlock n ls.1 inner.1 x) := by
  unfold parseBody
  rw [hs]
  cases r with
  | nil => cases h1
  | cons c r =>
    cases c
    case eq => exact absurd rfl (hne r)
    all_goals simp only [h1, h2, h3, h4, Except.bind, Except.map]

theorem consAttr_rest {n : Bytes} {e : Expr} {x y : Body × List Tok} (h : consAttr n e x = .ok y) (u : List Tok) :
    y.2 = x.2 ∧ consAttr n e (x.1, u) = .ok (y.1, u) := by
  unfold consAttr at h ⊢
  split at h
  · cases h
  · next hn => cases h; simp only [hn, if_false]; exact ⟨trivial, trivial⟩

theorem not_eq_append {r x : List Tok} (hr : r ≠ []) (hne : ∀ q, r ≠ .eq :: q) : ∀ q, r ++ x ≠ .eq :: q := by
  intro q h
  cases r with
  | nil => exact hr rfl
  | cons c r => cases h; exact hne r rfl

/-- A body that ends with a brace does not depend on what follows. -/
theorem parseBody_append (x : List Tok) : ∀ f,
    (∀ ts y, parseBody false f ts = .ok y → ∀ f', f ≤ f' → parseBody false f' (ts ++ x) = .ok (y.1, y.2 ++ x)) ∧
    (∀ ts y, parseBlock f ts = .ok y → ∀ f', f ≤ f' → parseBlock f' (ts ++ x) = .ok (y.1, y.2 ++ x)) := by
  intro f
  induction f with
  | zero => constructor <;> intros <;> simp_all [parseBody, parseBlock]
  | succ f ih =>
    obtain ⟨ihB, ihK⟩ := ih
    constructor
    · intro ts y h f' hf
      obtain ⟨f', rfl⟩ : ∃ g, f' = g + 1 := ⟨f' - 1, by omega⟩
      have hf : f ≤ f' := by omega
      have hsk := skipNl_append (x := x) (parseBody_nil h)
      rcases parseBody_cases h with ⟨_, h, _⟩ | ⟨r, hs, _, rfl⟩ | ⟨n, r, e, r', z, hs, h1, h2, h3, h4⟩ |
        ⟨n, r, ls, inner, r', z, hs, hne, h1, h2, h3, h4, rfl⟩
      · cases h
      · rw [hs] at hsk
        unfold parseBody
        rw [hsk]; rfl
      · rw [hs] at hsk
        have hr' := parseBody_nil h3
        obtain ⟨g1, g2⟩ := consAttr_rest h4 (z.2 ++ x)
        rw [g1]
        exact parseBody_attr hsk
          ((parse_append x f).1 _ _ e.1 e.2 h1 (.inr (by rw [endItem_skip h2]; exact hr')) f' hf) (endItem_append h2 hr')
          (ihB _ _ h3 f' hf) g2
      · rw [hs] at hsk
        have hr' := parseBody_nil h4
        have := parseBody_block (top := false) hsk (not_eq_append (by rintro rfl; cases h1) hne) (parseLabels_append x _ ls.1 ls.2 h1)
          (ihK _ _ h2 f' hf) (endItem_append h3 hr') (ihB _ _ h4 f' hf)
        exact this
    · intro ts y h f' hf
      obtain ⟨f', rfl⟩ : ∃ g, f' = g + 1 := ⟨f' - 1, by omega⟩
      have hf : f ≤ f' := by omega
      cases ts with
      | nil => simp [parseBlock] at h
      | cons c ts =>
        cases c
        case nl =>
          simp only [parseBlock, List.cons_append] at h ⊢
          exact ihB _ _ h f' hf
        case cbrace =>
          simp only [parseBlock] at h
          cases h
          simp [parseBlock]
        all_goals simp [parseBlock] at h

/-- The body of a whole text, with a newline and an end of another kind behind it. -/
theorem parseBody_then {top : Bool} {T u : List Tok} (hT : ∀ g, parseBody top (g + 1) T = .ok (.mk [] [], u)) : ∀ f ts y,
    parseBody true f ts = .ok y → y.2 = [] ∧ ∀ f', f ≤ f' → parseBody top f' (ts ++ .nl :: T) = .ok (y.1, u) := by
  intro f
  induction f with
  | zero => intro ts y h; simp [parseBody] at h
  | succ f ih =>
    intro ts y h
    -- what comes after an item: the end of the text or a newline
    have step : ∀ q r' z, endItem q = .ok r' → parseBody true f r' = .ok z → z.2 = [] ∧
        ∃ r'', endItem (q ++ .nl :: T) = .ok r'' ∧ ∀ f', f ≤ f' → parseBody top f' r'' = .ok (z.1, u) := by
      intro q r' z h2 h3
      cases q with
      | nil =>
        cases h2
        have hz : z = (.mk [] [], []) := by
          cases f with
          | zero => simp [parseBody] at h3
          | succ f => simp [parseBody, skipNl] at h3; exact h3.symm
        subst hz
        refine ⟨rfl, T, rfl, fun f' hf => ?_⟩
        obtain ⟨g, rfl⟩ : ∃ g, f' = g + 1 := ⟨f' - 1, by
          cases f with
          | zero => simp [parseBody] at h3
          | succ f => omega⟩
        exact hT g
      | cons c q =>
        cases c
        case nl =>
          cases h2
          exact ⟨(ih _ _ h3).1, r' ++ .nl :: T, rfl, (ih _ _ h3).2⟩
        all_goals cases h2
    rcases parseBody_cases h with ⟨hs, _, rfl⟩ | ⟨r, hs, h, _⟩ | ⟨n, r, e, r', z, hs, h1, h2, h3, h4⟩ |
        ⟨n, r, ls, inner, r', z, hs, hne, h1, h2, h3, h4, rfl⟩
    · refine ⟨rfl, fun f' hf => ?_⟩
      obtain ⟨f', rfl⟩ : ∃ g, f' = g + 1 := ⟨f' - 1, by omega⟩
      have := hT f'
      unfold parseBody at this ⊢
      rw [skipNl_append_nil hs]
      exact this
    · cases h
    · obtain ⟨k1, r'', k2, k3⟩ := step _ _ _ h2 h3
      obtain ⟨g1, g2⟩ := consAttr_rest h4 u
      refine ⟨by rw [g1]; exact k1, fun f' hf => ?_⟩
      obtain ⟨f', rfl⟩ : ∃ g, f' = g + 1 := ⟨f' - 1, by omega⟩
      have hf : f ≤ f' := by omega
      have hsk := skipNl_append (x := .nl :: T) (ts := ts) (by rw [hs]; simp)
      rw [hs] at hsk
      exact parseBody_attr hsk ((parse_append _ f).1 _ _ e.1 e.2 h1 (.inl ⟨rfl, T, rfl⟩) f' hf) k2 (k3 f' hf) g2
    · obtain ⟨k1, r'', k2, k3⟩ := step _ _ _ h3 h4
      refine ⟨k1, fun f' hf => ?_⟩
      obtain ⟨f', rfl⟩ : ∃ g, f' = g + 1 := ⟨f' - 1, by omega⟩
      have hf : f ≤ f' := by omega
      have hsk := skipNl_append (x := .nl :: T) (ts := ts) (by rw [hs]; simp)
      rw [hs] at hsk
      exact parseBody_block (top := top) hsk (not_eq_append (by rintro rfl; cases h1) hne) (parseLabels_append _ _ ls.1 ls.2 h1)
          ((parseBody_append _ f).2 _ _ h2 f' hf) k2 (k3 f' hf)

end Verif.Hcl
