import Verif.Model.HclAgain
set_option linter.unusedSimpArgs false
/-!
# The parser with positions is the parser
-/
namespace Verif.HclAgain
open Hcl

/-- The tokens without positions. -/
def toks (ts : List PTok) : List Tok := ts.map Prod.fst

theorem toks_cons (t : Tok) (p : Nat) (r : List PTok) : toks ((t, p) :: r) = t :: toks r := rfl

theorem toks_append (a c : List PTok) : toks (a ++ c) = toks a ++ toks c := List.map_append

theorem skipNl_toks (ts : List PTok) : skipNl (toks ts) = toks (skipNlP ts) := by
  induction ts with
  | nil => rfl
  | cons x r ih =>
    obtain ⟨t, p⟩ := x
    cases t <;> first | exact ih | rfl

theorem peekNl_toks (nls : Bool) (ts : List PTok) : peekNl nls (toks ts) = toks (peekNlP nls ts) := by
  unfold peekNl peekNlP
  cases nls
  · exact skipNl_toks ts
  · rfl

def er (x : Except Bad (PExpr × List PTok)) : Except Bad (Expr × List Tok) := x.map fun y => (y.1.erase, toks y.2)
def erL (x : Except Bad (List PExpr × Nat × List PTok)) : Except Bad (List Expr × List Tok) := x.map fun y => (eraseL y.1, toks y.2.2)
def erM (x : Except Bad (List (PExpr × PExpr) × Nat × List PTok)) : Except Bad (List (Expr × Expr) × List Tok) := x.map fun y => (eraseM y.1, toks y.2.2)

theorem endTerm_er (nls : Bool) (e : PExpr) (ts : List PTok) : endTerm nls e.erase (toks ts) = er (endTermP nls e ts) := by
  unfold endTerm endTermP
  rw [peekNl_toks]
  cases peekNlP nls ts with
  | nil => rfl
  | cons x r =>
    obtain ⟨t, p⟩ := x
    cases t <;> rfl

theorem identTerm_er (nls : Bool) (n : Bytes) (ts : List PTok) : identTerm nls n (toks ts) = er (identTermP nls n ts) := by
  have h : endTerm nls (.ident n) (toks ts) = er (endTermP nls (.ident n) ts) := by
    rw [← endTerm_er, PExpr.erase]
  unfold identTerm identTermP
  rw [peekNl_toks]
  cases peekNlP nls ts with
  | nil => exact h
  | cons x r =>
    obtain ⟨t, p⟩ := x
    cases t <;> try exact h
    rw [toks_cons]
    dsimp only
    rw [skipNl_toks]
    cases skipNlP r with
    | nil => rfl
    | cons y r' =>
      obtain ⟨t, p⟩ := y
      cases t <;> try rfl
      rw [toks_cons]
      dsimp only
      rw [← endTerm_er, PExpr.erase]

theorem bind_er {α α' β β' : Type} {x : Except Bad α} {f : α → Except Bad β} {g : α → α'} {h : β → β'} {f' : α' → Except Bad β'}
    (hf : ∀ a, f' (g a) = (f a).map h) : (x.map g).bind f' = (x.bind f).map h := by
  cases x with
  | ok a => exact hf a
  | error e => rfl

theorem erase_all : ∀ f, (∀ nls ts, parseExpr nls f (toks ts) = er (parseExprP nls f ts)) ∧ (∀ ts, parseTuple f (toks ts) = erL (parseTupleP f ts)) ∧
    (∀ ts, parseObject f (toks ts) = erM (parseObjectP f ts)) ∧ (∀ k ts, objValue f (PExpr.erase k) (toks ts) = erM (objValueP f k ts)) ∧
    ∀ k v ts, objNext f (PExpr.erase k) (PExpr.erase v) (toks ts) = erM (objNextP f k v ts) := by
  intro f
  induction f with
  | zero =>
    refine ⟨fun _ _ => ?_, fun _ => ?_, fun _ => ?_, fun _ _ => ?_, fun _ _ _ => ?_⟩
    · rw [parseExpr, parseExprP]; rfl
    · rw [parseTuple, parseTupleP]; rfl
    · rw [parseObject, parseObjectP]; rfl
    · rw [objValue, objValueP]; rfl
    · rw [objNext, objNextP]; rfl
  | succ f ih =>
    obtain ⟨hE, hT, hO, hV, hN⟩ := ih
    refine ⟨fun nls ts => ?_, fun ts => ?_, fun ts => ?_, fun k ts => ?_, fun k v ts => ?_⟩
    · rw [parseExpr, parseExprP, peekNl_toks]
      cases peekNlP nls ts with
      | nil => rfl
      | cons x r =>
        obtain ⟨t, p⟩ := x
        rw [toks_cons]
        cases t with
        | str s => dsimp only; rw [← endTerm_er, PExpr.erase]
        | num q => dsimp only; rw [← endTerm_er, PExpr.erase]
        | ident n => dsimp only; rw [identTerm_er]
        | minus =>
          dsimp only
          rw [hE]
          cases parseExprP nls f r with
          | error e => rfl
          | ok x => simp only [er, erL, erM, Except.map, PExpr.erase, eraseL, eraseM]
        | obrack =>
          dsimp only
          rw [show List.map Prod.fst r = toks r from rfl]
          split
          · rfl
          · rw [hT]
            exact bind_er fun a => by rw [show endTerm nls (Expr.tuple (eraseL a.1)) (toks a.2.2) = er (endTermP nls (.tuple p a.2.1 a.1) a.2.2) by
              rw [← endTerm_er, PExpr.erase]]; rfl
        | obrace =>
          dsimp only
          rw [show List.map Prod.fst r = toks r from rfl]
          split
          · rfl
          · rw [hO]
            exact bind_er fun a => by rw [show endTerm nls (Expr.object (eraseM a.1)) (toks a.2.2) = er (endTermP nls (.object p a.2.1 a.1) a.2.2) by
              rw [← endTerm_er, PExpr.erase]]; rfl
        | _ => rfl
    · have hcont : ∀ u : List PTok, ((parseExpr false f (toks u)).bind fun x =>
          match skipNl x.2 with
          | .cbrack :: r => .ok ([x.1], r)
          | .comma :: r => (parseTuple f r).map fun y => (x.1 :: y.1, y.2)
          | _ => .error .invalid) = erL ((parseExprP false f u).bind fun x =>
          match skipNlP x.2 with
          | (.cbrack, p) :: r => .ok ([x.1], p + 1, r)
          | (.comma, _) :: r => (parseTupleP f r).map fun y => (x.1 :: y.1, y.2)
          | _ => .error .invalid) := by
        intro u
        rw [hE]
        refine bind_er fun a => ?_
        dsimp only
        rw [skipNl_toks]
        cases skipNlP a.2 with
        | nil => rfl
        | cons x r =>
          obtain ⟨t, p⟩ := x
          rw [toks_cons]
          cases t with
          | cbrack => simp only [er, erL, erM, Except.map, PExpr.erase, eraseL, eraseM]
          | comma =>
            dsimp only
            rw [hT]
            cases parseTupleP f r with
            | error e => rfl
            | ok x => simp only [er, erL, erM, Except.map, PExpr.erase, eraseL, eraseM]
          | _ => rfl
      rw [parseTuple, parseTupleP, skipNl_toks]
      cases skipNlP ts with
      | nil => exact hcont []
      | cons x r =>
        obtain ⟨t, p⟩ := x
        cases t with
        | cbrack => rw [toks_cons]; simp only [er, erL, erM, Except.map, PExpr.erase, eraseL, eraseM]
        | _ => exact hcont (_ :: r)
    · have hcont : ∀ u : List PTok, ((parseExpr true f (toks u)).bind fun k => objValue f k.1 k.2) = erM ((parseExprP true f u).bind fun k => objValueP f k.1 k.2) := by
        intro u
        rw [hE]
        exact bind_er fun a => hV a.1 a.2
      rw [parseObject, parseObjectP, skipNl_toks]
      cases skipNlP ts with
      | nil => exact hcont []
      | cons x r =>
        obtain ⟨t, p⟩ := x
        cases t with
        | cbrace => rw [toks_cons]; simp only [er, erL, erM, Except.map, PExpr.erase, eraseL, eraseM]
        | _ => exact hcont (_ :: r)
    · cases ts with
      | nil => rfl
      | cons x r =>
        obtain ⟨t, p⟩ := x
        rw [toks_cons]
        unfold objValue objValueP
        cases t with
        | eq => dsimp only; rw [hE]; exact bind_er fun a => hN k a.1 a.2
        | colon => dsimp only; rw [hE]; exact bind_er fun a => hN k a.1 a.2
        | _ => rfl
    · have hcont : ∀ r : List PTok, ((parseObject f (toks r)).map fun y => ((k.erase, v.erase) :: y.1, y.2)) =
          erM ((parseObjectP f r).map fun y => ((k, v) :: y.1, y.2)) := by
        intro r
        rw [hO]
        cases parseObjectP f r with
        | error e => rfl
        | ok x => simp only [er, erL, erM, Except.map, PExpr.erase, eraseL, eraseM]
      cases ts with
      | nil => rfl
      | cons x r =>
        obtain ⟨t, p⟩ := x
        rw [toks_cons]
        unfold objNext objNextP
        cases t with
        | cbrace => simp only [er, erL, erM, Except.map, PExpr.erase, eraseL, eraseM]
        | comma => exact hcont r
        | nl => exact hcont r
        | _ => rfl

/-! ## Bodies -/

mutual
def PBody.erase : PBody → Body
  | .mk a x => .mk (eraseA a) (eraseB x)
def eraseB : List (Bytes × List Bytes × PBody) → List (Bytes × List Bytes × Body)
  | [] => []
  | (t, ls, body) :: r => (t, ls, body.erase) :: eraseB r
def eraseA : List (Bytes × PExpr) → List (Bytes × Expr)
  | [] => []
  | (k, e) :: r => (k, e.erase) :: eraseA r
end

def erB (x : Except Bad (PBody × List PTok)) : Except Bad (Body × List Tok) := x.map fun y => (y.1.erase, toks y.2)

theorem attrs_erase (x : PBody) : x.erase.attrs = eraseA x.attrs := by
  cases x; rw [PBody.erase]; rfl

theorem blocks_erase (x : PBody) : x.erase.blocks = eraseB x.blocks := by
  cases x; rw [PBody.erase]; rfl

theorem keys_eraseA (l : List (Bytes × PExpr)) : (eraseA l).map Prod.fst = l.map Prod.fst := by
  induction l with
  | nil => rw [eraseA]; rfl
  | cons x l ih => obtain ⟨k, e⟩ := x; rw [eraseA, List.map_cons, ih]; rfl

theorem parseLabels_er (ts : List PTok) : parseLabels (toks ts) = (parseLabelsP ts).map fun x => (x.1, toks x.2) := by
  induction ts with
  | nil => rfl
  | cons x r ih =>
    obtain ⟨t, p⟩ := x
    rw [toks_cons]
    cases t with
    | str s => rw [parseLabels, parseLabelsP, ih]; cases parseLabelsP r <;> rfl
    | ident s => rw [parseLabels, parseLabelsP, ih]; cases parseLabelsP r <;> rfl
    | _ => rfl

theorem endItem_er (ts : List PTok) : endItem (toks ts) = (endItemP ts).map toks := by
  cases ts with
  | nil => rfl
  | cons x r =>
    obtain ⟨t, p⟩ := x
    cases t <;> rfl

theorem consAttr_er (n : Bytes) (e : PExpr) (x : PBody × List PTok) : consAttr n e.erase (x.1.erase, toks x.2) = erB (consAttrP n e x) := by
  unfold consAttr consAttrP
  dsimp only
  rw [attrs_erase, blocks_erase, keys_eraseA]
  split
  · rfl
  · simp only [er, erL, erM, erB, Except.map, PExpr.erase, eraseL, eraseM, PBody.erase, eraseA, eraseB]

theorem consBlock_er (n : Bytes) (ls : List Bytes) (inner : PBody) (x : PBody × List PTok) :
    consBlock n ls inner.erase (x.1.erase, toks x.2) = ((consBlockP n ls inner x).1.erase, toks (consBlockP n ls inner x).2) := by
  unfold consBlock consBlockP
  dsimp only
  rw [attrs_erase, blocks_erase, PBody.erase, eraseB]

theorem eraseBody_all : ∀ f, (∀ top ts, parseBody top f (toks ts) = erB (parseBodyP top f ts)) ∧ ∀ ts, parseBlock f (toks ts) = erB (parseBlockP f ts) := by
  intro f
  induction f with
  | zero => exact ⟨fun _ _ => (by rw [parseBody, parseBodyP]; rfl), fun _ => (by rw [parseBlock, parseBlockP]; rfl)⟩
  | succ f ih =>
    obtain ⟨hB, hK⟩ := ih
    constructor
    · intro top ts
      have hblock : ∀ (n : Bytes) (r : List PTok), ((parseLabels (toks r)).bind fun ls => (parseBlock f ls.2).bind fun inner =>
          (endItem inner.2).bind fun r' => (parseBody top f r').map fun x => consBlock n ls.1 inner.1 x) =
          erB ((parseLabelsP r).bind fun ls => (parseBlockP f ls.2).bind fun inner =>
          (endItemP inner.2).bind fun r' => (parseBodyP top f r').map fun x => consBlockP n ls.1 inner.1 x) := by
        intro n r
        rw [parseLabels_er]
        refine bind_er fun ls => ?_
        dsimp only
        rw [hK]
        refine bind_er fun inner => ?_
        dsimp only
        rw [endItem_er]
        refine bind_er fun r' => ?_
        rw [hB]
        cases parseBodyP top f r' with
        | error e => rfl
        | ok x => exact congrArg Except.ok (consBlock_er n ls.1 inner.1 x)
      rw [parseBody, parseBodyP, skipNl_toks]
      cases skipNlP ts with
      | nil =>
        show (if _ then _ else _) = erB (if _ then _ else _)
        split
        · simp only [er, erL, erM, erB, Except.map, PExpr.erase, eraseL, eraseM, PBody.erase, eraseA, eraseB]; rfl
        · rfl
      | cons x r =>
        obtain ⟨t, p⟩ := x
        rw [toks_cons]
        cases t with
        | cbrace =>
          show (if _ then _ else _) = erB (if _ then _ else _)
          split
          · rfl
          · simp only [er, erL, erM, erB, Except.map, PExpr.erase, eraseL, eraseM, PBody.erase, eraseA, eraseB]
        | ident n =>
          cases r with
          | nil => exact hblock n []
          | cons y r =>
            obtain ⟨t, q⟩ := y
            cases t with
            | eq =>
              rw [toks_cons]
              dsimp only
              rw [(erase_all f).1]
              refine bind_er fun e => ?_
              dsimp only
              rw [endItem_er]
              refine bind_er fun r' => ?_
              rw [hB]
              exact bind_er fun x => consAttr_er n e.1 x
            | _ => exact hblock n (_ :: r)
        | _ => rfl
    · intro ts
      cases ts with
      | nil => rfl
      | cons x r =>
        obtain ⟨t, p⟩ := x
        rw [toks_cons]
        unfold parseBlock parseBlockP
        cases t with
        | nl => exact hB false r
        | cbrace => simp only [er, erL, erM, erB, Except.map, PExpr.erase, eraseL, eraseM, PBody.erase, eraseA, eraseB]
        | _ => rfl

theorem lexP_er (s : LState) (i : Nat) (t : Bytes) : lex s t = (lexP s i t).map toks := by
  induction t generalizing s i with
  | nil =>
    rw [lex, lexP]
    cases lexEnd s with
    | error e => rfl
    | ok ts => show Except.ok _ = Except.ok _; unfold toks; rw [List.map_map, show (Prod.fst ∘ fun t => (t, i)) = (id : Tok → Tok) from rfl, List.map_id]
  | cons c r ih =>
    rw [lex, lexP]
    cases lexStep s c with
    | error e => rfl
    | ok x =>
      show (lex x.1 r).map _ = ((lexP x.1 (i + 1) r).map _).map _
      rw [ih x.1 (i + 1)]
      cases lexP x.1 (i + 1) r with
      | error e => rfl
      | ok ts =>
        show Except.ok _ = Except.ok _
        rw [toks_append]
        unfold toks
        rw [List.map_map, show (Prod.fst ∘ fun t => (t, i)) = (id : Tok → Tok) from rfl, List.map_id]

theorem parseConfig_er (t : Bytes) : parseConfig t = (parseConfigP t).map PBody.erase := by
  unfold parseConfig parseConfigP
  rw [lexP_er .start 0]
  cases lexP .start 0 t with
  | error e => rfl
  | ok ts =>
    show (parseBody true (3 * (toks ts).length + 3) (toks ts)).map _ = ((parseBodyP true (3 * ts.length + 3) ts).map _).map _
    rw [show (toks ts).length = ts.length from List.length_map _, (eraseBody_all _).1]
    cases parseBodyP true (3 * ts.length + 3) ts <;> rfl

end Verif.HclAgain
