import Verif.Lemmas.HclAgainRange
import Verif.Lemmas.GoMap
/-!
# Parsing lists and objects a second time
-/
namespace Verif.HclAgain
open Hcl

/-! ## The expressions of a body -/

mutual
/-- The expressions of a body and of the blocks in it. -/
def exprs : PBody → List PExpr
  | .mk attrs blocks => attrs.map Prod.snd ++ exprsB blocks
def exprsB : List (Bytes × List Bytes × PBody) → List PExpr
  | [] => []
  | (_, _, body) :: r => exprs body ++ exprsB r
end

/-- `e` is an expression of the file. -/
def Parsed (file : Bytes) (e : PExpr) : Prop := ∃ pts, lexP .start 0 file = .ok pts ∧ Sub pts e

theorem labelsP_suffix (ts : List PTok) : ∀ ls rest, parseLabelsP ts = .ok (ls, rest) → ∃ c, ts = c ++ rest := by
  induction ts with
  | nil => intro ls rest h; cases h
  | cons x r ih =>
    intro ls rest h
    obtain ⟨t, p⟩ := x
    cases t with
    | obrace => cases h; exact ⟨[_], rfl⟩
    | str s =>
      rw [parseLabelsP] at h
      obtain ⟨y, h1, h2⟩ := map_ok h
      cases h2
      obtain ⟨c, hc⟩ := ih _ _ h1
      exact ⟨_ :: c, by rw [hc]; rfl⟩
    | ident s =>
      rw [parseLabelsP] at h
      obtain ⟨y, h1, h2⟩ := map_ok h
      cases h2
      obtain ⟨c, hc⟩ := ih _ _ h1
      exact ⟨_ :: c, by rw [hc]; rfl⟩
    | _ => cases h

theorem endItemP_suffix {ts rest : List PTok} (h : endItemP ts = .ok rest) : ∃ c, ts = c ++ rest := by
  unfold endItemP at h
  split at h
  · cases h; exact ⟨[], rfl⟩
  · cases h; exact ⟨[_], rfl⟩
  · cases h

theorem exprs_attr {n : Bytes} {e x : PExpr} {body : PBody} (h : x ∈ exprs (.mk ((n, e) :: body.attrs) body.blocks)) : x = e ∨ x ∈ exprs body := by
  cases body with
  | mk attrs blocks =>
    simp only [exprs, PBody.attrs, PBody.blocks, List.map_cons, List.cons_append, List.mem_cons] at h ⊢
    exact h

theorem exprs_block {n : Bytes} {ls : List Bytes} {inner body : PBody} {x : PExpr} (h : x ∈ exprs (.mk body.attrs ((n, ls, inner) :: body.blocks))) :
    x ∈ exprs inner ∨ x ∈ exprs body := by
  cases body with
  | mk attrs blocks =>
    simp only [exprs, exprsB, PBody.attrs, PBody.blocks, List.mem_append] at h ⊢
    rcases h with h | h | h
    · exact .inr (.inl h)
    · exact .inl h
    · exact .inr (.inr h)

theorem exprs_nil {x : PExpr} (h : x ∈ exprs (.mk [] [])) : False := by
  simp only [exprs, exprsB, List.map_nil, List.append_nil] at h
  cases h

theorem body_shape : ∀ f, (∀ top ts body rest, parseBodyP top f ts = .ok (body, rest) → (∃ c, ts = c ++ rest) ∧ ∀ e ∈ exprs body, Sub ts e) ∧
    ∀ ts body rest, parseBlockP f ts = .ok (body, rest) → (∃ c, ts = c ++ rest) ∧ ∀ e ∈ exprs body, Sub ts e := by
  intro f
  induction f with
  | zero =>
    refine ⟨fun _ _ _ _ h => ?_, fun _ _ _ h => ?_⟩
    · rw [parseBodyP] at h; cases h
    · rw [parseBlockP] at h; cases h
  | succ f ih =>
    obtain ⟨hB, hK⟩ := ih
    refine ⟨fun top ts body rest h => ?_, fun ts body rest h => ?_⟩
    · obtain ⟨c, hc⟩ := skipNlP_split ts
      unfold parseBodyP at h
      split at h
      · split at h
        · cases h; exact ⟨⟨ts, (List.append_nil _).symm⟩, fun e he => (exprs_nil he).elim⟩
        · cases h
      · next p r hp =>
        split at h
        · cases h
        · cases h
          exact ⟨⟨c ++ [(.cbrace, p)], by rw [hc, hp, List.append_assoc]; rfl⟩, fun e he => (exprs_nil he).elim⟩
      · next n p q r hp =>
        obtain ⟨⟨e, r1⟩, h1, h⟩ := bind_ok h
        obtain ⟨r2, h2, h⟩ := bind_ok h
        obtain ⟨⟨body', r3⟩, h3, h⟩ := bind_ok h
        obtain ⟨c1, hc1⟩ := (shape_all f).1 _ _ _ _ h1
        obtain ⟨c2, hc2⟩ := endItemP_suffix h2
        obtain ⟨⟨c3, hc3⟩, hs⟩ := hB _ _ _ _ h3
        dsimp only at hc2
        unfold consAttrP at h
        split at h
        · cases h
        · cases h
          have hts : ts = (c ++ (.ident n, p) :: (.eq, q) :: (c1 ++ c2)) ++ r2 := by rw [hc, hp, hc1, hc2]; simp
          have hts' : ts = (c ++ [(.ident n, p), (.eq, q)]) ++ r := by rw [hc, hp]; simp
          refine ⟨⟨(c ++ (.ident n, p) :: (.eq, q) :: (c1 ++ c2)) ++ c3, by rw [hts, hc3]; simp⟩, fun x hx => ?_⟩
          rcases exprs_attr hx with rfl | hx
          · rw [hts']; exact (Sub.here h1).mono _
          · rw [hts]; exact (hs _ hx).mono _
      · next n p r hne hp =>
        obtain ⟨⟨ls, r1⟩, h1, h⟩ := bind_ok h
        obtain ⟨⟨inner, r2⟩, h2, h⟩ := bind_ok h
        obtain ⟨r3, h3, h⟩ := bind_ok h
        obtain ⟨⟨body', r4⟩, h4, h⟩ := map_ok h
        obtain ⟨c1, hc1⟩ := labelsP_suffix _ _ _ h1
        obtain ⟨⟨c2, hc2⟩, hs2⟩ := hK _ _ _ h2
        obtain ⟨c3, hc3⟩ := endItemP_suffix h3
        obtain ⟨⟨c4, hc4⟩, hs⟩ := hB _ _ _ _ h4
        dsimp only at hc2 hc3
        unfold consBlockP at h
        cases h
        have hts : ts = (c ++ (.ident n, p) :: (c1 ++ (c2 ++ c3))) ++ r3 := by rw [hc, hp, hc1, hc2, hc3]; simp
        have hts' : ts = (c ++ (.ident n, p) :: c1) ++ r1 := by rw [hc, hp, hc1]; simp
        refine ⟨⟨(c ++ (.ident n, p) :: (c1 ++ (c2 ++ c3))) ++ c4, by rw [hts, hc4]; simp⟩, fun x hx => ?_⟩
        rcases exprs_block hx with hx | hx
        · rw [hts']; exact (hs2 _ hx).mono _
        · rw [hts]; exact (hs _ hx).mono _
      · cases h
    · unfold parseBlockP at h
      split at h
      · next p r =>
        obtain ⟨⟨c, hc⟩, hs⟩ := hB _ _ _ _ h
        exact ⟨⟨(.nl, p) :: c, by rw [hc]; rfl⟩, fun x hx => (hs x hx).mono [(.nl, p)]⟩
      · next p r =>
        cases h
        exact ⟨⟨[(.cbrace, p)], rfl⟩, fun x hx => (exprs_nil hx).elim⟩
      · cases h

theorem config_parsed {file : Bytes} {body : PBody} (h : parseConfigP file = .ok body) : ∀ e ∈ exprs body, Parsed file e := by
  unfold parseConfigP at h
  obtain ⟨pts, h1, h⟩ := bind_ok h
  obtain ⟨⟨body', r⟩, h2, rfl⟩ := map_ok h
  intro e he
  exact ⟨pts, h1, ((body_shape _).1 _ _ _ _ h2).2 e he⟩

/-! ## The text of a list or object -/

theorem lexStep_of_br {t : Tok} {ct : UInt8} (h : brByte t = some ct) : lexStep .start ct = .ok (.start, [t]) := by
  cases t <;> cases h <;> rfl

theorem lexP_move (v : Bytes) : ∀ (s : LState) (i : Nat), lex s v = (lexP s i v).map toks := fun s i => lexP_er s i v

/-- The bytes from an opening to a closing bracket, and their tokens. -/
theorem cut_lex {file : Bytes} {pre mid rest : List PTok} {o c : Tok} {co cc : UInt8} {lo p : Nat} (ho : brByte o = some co) (hc : brByte c = some cc)
    (h : lexP .start 0 file = .ok (pre ++ (o, lo) :: (mid ++ (c, p) :: rest))) :
    (∃ w, cut file lo (p + 1) = co :: (w ++ [cc])) ∧ lex .start (cut file lo (p + 1)) = .ok (o :: (toks mid ++ [c])) := by
  obtain ⟨w, z, rfl, hlo, _, h2⟩ := lexP_split ho _ _ _ _ _ _ h
  obtain ⟨w2, z2, rfl, hp, h3, _⟩ := lexP_split hc _ _ _ _ _ _ h2
  have hcut : cut (w ++ co :: (w2 ++ cc :: z2)) lo (p + 1) = co :: (w2 ++ [cc]) := by
    have e : w ++ co :: (w2 ++ cc :: z2) = (w ++ (co :: (w2 ++ [cc]))) ++ z2 := by simp
    unfold cut
    rw [e, List.take_left' (by simp only [List.length_append, List.length_cons, List.length_nil]; omega), List.drop_left' (by omega)]
  refine ⟨⟨w2, hcut⟩, ?_⟩
  rw [hcut]
  unfold lex
  rw [lexStep_of_br ho]
  show (lex .start (w2 ++ [cc])).map _ = _
  rw [lexP_er .start (lo + 1), h3]
  show Except.ok _ = _
  rw [toks_append]; rfl

theorem lex_fileX (bs : Bytes) : lex .start (fileX bs) = (lex .start bs).map fun ts => .ident (b "x") :: .eq :: ts := by
  have e : fileX bs = 120 :: 32 :: 61 :: 32 :: bs := by
    unfold fileX
    rw [show b "x = " = [120, 32, 61, 32] by decide +kernel]; rfl
  have s1 : lexStep .start 120 = .ok (.ident [120], []) := by rfl
  have s2 : lexStep (.ident [120]) 32 = .ok (.start, [.ident [120]]) := by rfl
  have s3 : lexStep .start 61 = .ok (.start, [.eq]) := by rfl
  have s4 : lexStep .start 32 = .ok (.start, []) := by rfl
  rw [e, show b "x" = [120] by decide +kernel, lex, s1]
  show (lex (.ident [120]) _).map _ = _
  rw [lex, s2]
  show ((lex .start _).map _).map _ = _
  rw [lex, s3]
  show (((lex .start _).map _).map _).map _ = _
  rw [lex, s4]
  show ((((lex .start bs).map _).map _).map _).map _ = _
  cases lex .start bs <;> rfl

/-- `x = ` and an expression that the parser reads completely. -/
theorem parseX_of {bs : Bytes} {ts : List Tok} {e : Expr} (h1 : lex .start bs = .ok ts) (h2 : ∀ f, 3 * ts.length + 1 ≤ f → parseExpr true f ts = .ok (e, [])) :
    parseX bs = .ok e := by
  have hc : parseConfig (b "x = " ++ bs) = .ok (.mk [(b "x", e)] []) := by
    unfold parseConfig
    rw [show lex .start (b "x = " ++ bs) = .ok (.ident (b "x") :: .eq :: ts) by
      rw [show b "x = " ++ bs = fileX bs from rfl, lex_fileX, h1]; rfl]
    show (parseBody true (3 * (ts.length + 1 + 1) + 3) _).map Prod.fst = _
    rw [parseBody, skipNl_cons (by intro h; cases h)]
    show ((parseExpr true _ ts).bind _).map Prod.fst = _
    rw [h2 _ (by omega)]
    show ((parseBody true (3 * (ts.length + 1 + 1) + 2) []).bind fun x => consAttr (b "x") e x).map Prod.fst = _
    rw [parseBody]
    rfl
  unfold parseX
  rw [hc]
  show (match GoMap.get? [(b "x", e)] (b "x") with
    | some e => Out.ok e
    | none => .err) = _
  rw [show GoMap.get? [(b "x", e)] (b "x") = some e by simp [GoMap.get?]]

theorem get_eraseA (k : Bytes) (l : List (Bytes × PExpr)) : GoMap.get? (eraseA l) k = (GoMap.get? l k).map PExpr.erase := by
  induction l with
  | nil => rw [eraseA]; rfl
  | cons x l ih =>
    obtain ⟨k', e⟩ := x
    rw [eraseA]
    unfold GoMap.get?
    split
    · rfl
    · exact ih

theorem ofParse_map {α β : Type} (x : Except Bad α) (f : α → β) : Out.ofParse (x.map f) = (Out.ofParse x).map f := by
  cases x with
  | ok a => rfl
  | error e => cases e <;> rfl

theorem parseX_er (bs : Bytes) : parseX bs = (parseXP bs).map PExpr.erase := by
  unfold parseX parseXP
  rw [show b "x = " ++ bs = fileX bs from rfl, parseConfig_er, ofParse_map]
  cases Out.ofParse (parseConfigP (fileX bs)) with
  | ok body =>
    show (match GoMap.get? body.erase.attrs (b "x") with
      | some e => Out.ok e
      | none => .err) = Out.map PExpr.erase (match GoMap.get? body.attrs (b "x") with
      | some e => .ok e
      | none => .err)
    rw [attrs_erase, get_eraseA]
    cases GoMap.get? body.attrs (b "x") <;> rfl
  | err => rfl
  | panic => rfl
  | unsupported => rfl

theorem parseXP_parsed {bs : Bytes} {e : PExpr} (h : parseXP bs = .ok e) : Parsed (fileX bs) e := by
  unfold parseXP at h
  cases hc : parseConfigP (fileX bs) with
  | error x => rw [hc] at h; cases x <;> cases h
  | ok body =>
    rw [hc] at h
    change (match GoMap.get? body.attrs (b "x") with
      | some e => Out.ok e
      | none => .err) = _ at h
    cases hg : GoMap.get? body.attrs (b "x") with
    | none => rw [hg] at h; cases h
    | some e' =>
      rw [hg] at h; cases h
      refine config_parsed hc e ?_
      cases body with
      | mk attrs blocks =>
        rw [exprs]
        exact List.mem_append_left _ (List.mem_map.2 ⟨_, GoMap.get?_mem hg, rfl⟩)

/-! ## Lists and objects -/

theorem tuple_of {nls : Bool} {f : Nat} {ts rest : List PTok} {lo hi : Nat} {l : List PExpr} (h : parseExprP nls f ts = .ok (.tuple lo hi l, rest)) :
    ∃ pre f' r, ts = pre ++ (.obrack, lo) :: r ∧ startsFor (toks r) = false ∧ parseTupleP f' r = .ok (l, hi, rest) := by
  obtain ⟨c, hc⟩ := peekNlP_split nls ts
  cases f with
  | zero => rw [parseExprP] at h; cases h
  | succ f =>
    unfold parseExprP at h
    split at h
    · cases (endTermP_ok h).1
    · cases (endTermP_ok h).1
    · rcases (identTermP_ok h).2 with h | h <;> cases h
    · obtain ⟨x, hx, he⟩ := map_ok h; cases he
    · next lo' r hp =>
      split at h
      · cases h
      · next hs =>
        obtain ⟨⟨l', hi', r'⟩, hx, he⟩ := bind_ok h
        obtain ⟨h1, h2⟩ := endTermP_ok he
        cases h1
        replace h2 : rest = r' := h2
        subst h2
        exact ⟨c, f, r, by rw [hc, hp], by simpa [toks] using hs, hx⟩
    · split at h
      · cases h
      · obtain ⟨x, hx, he⟩ := bind_ok h
        cases (endTermP_ok he).1
    · cases h
    · cases h

theorem object_of {nls : Bool} {f : Nat} {ts rest : List PTok} {lo hi : Nat} {m : List (PExpr × PExpr)} (h : parseExprP nls f ts = .ok (.object lo hi m, rest)) :
    ∃ pre f' r, ts = pre ++ (.obrace, lo) :: r ∧ startsFor (toks r) = false ∧ parseObjectP f' r = .ok (m, hi, rest) := by
  obtain ⟨c, hc⟩ := peekNlP_split nls ts
  cases f with
  | zero => rw [parseExprP] at h; cases h
  | succ f =>
    unfold parseExprP at h
    split at h
    · cases (endTermP_ok h).1
    · cases (endTermP_ok h).1
    · rcases (identTermP_ok h).2 with h | h <;> cases h
    · obtain ⟨x, hx, he⟩ := map_ok h; cases he
    · split at h
      · cases h
      · obtain ⟨x, hx, he⟩ := bind_ok h
        cases (endTermP_ok he).1
    · next lo' r hp =>
      split at h
      · cases h
      · next hs =>
        obtain ⟨⟨l', hi', r'⟩, hx, he⟩ := bind_ok h
        obtain ⟨h1, h2⟩ := endTermP_ok he
        cases h1
        replace h2 : rest = r' := h2
        subst h2
        exact ⟨c, f, r, by rw [hc, hp], by simpa [toks] using hs, hx⟩
    · cases h
    · cases h

theorem Parsed.elems {file : Bytes} {lo hi : Nat} {l : List PExpr} (h : Parsed file (.tuple lo hi l)) : ∀ e ∈ l, Parsed file e := by
  obtain ⟨pts, h1, pre, suf, nls, f, rest, rfl, h2⟩ := h
  obtain ⟨pre', f', r, rfl, _, h3⟩ := tuple_of h2
  intro e he
  have := ((((shape_all f').2.1 _ _ _ _ h3).2 e he).mono (pre' ++ [(.obrack, lo)])).mono pre
  rw [List.append_assoc, List.singleton_append] at this
  exact ⟨_, h1, this⟩

theorem Parsed.members {file : Bytes} {lo hi : Nat} {m : List (PExpr × PExpr)} (h : Parsed file (.object lo hi m)) : ∀ x ∈ m, Parsed file x.2 := by
  obtain ⟨pts, h1, pre, suf, nls, f, rest, rfl, h2⟩ := h
  obtain ⟨pre', f', r, rfl, _, h3⟩ := object_of h2
  intro e he
  have := ((((shape_all f').2.2.1 _ _ _ _ h3).2 e he).mono (pre' ++ [(.obrace, lo)])).mono pre
  rw [List.append_assoc, List.singleton_append] at this
  exact ⟨_, h1, this⟩

/-- `x` is `e` or at some place inside of it, as an element or the value of a member. -/
inductive Inside (x : PExpr) : PExpr → Prop where
  | here : Inside x x
  | elem {lo hi : Nat} {l : List PExpr} {e : PExpr} : e ∈ l → Inside x e → Inside x (.tuple lo hi l)
  | member {lo hi : Nat} {m : List (PExpr × PExpr)} {k e : PExpr} : (k, e) ∈ m → Inside x e → Inside x (.object lo hi m)

theorem Inside.parsed {file : Bytes} {x e : PExpr} (h : Inside x e) : Parsed file e → Parsed file x := by
  induction h with
  | here => exact id
  | elem hm _ ih => exact fun hp => ih (hp.elems _ hm)
  | member hm _ ih => exact fun hp => ih (hp.members _ hm)

theorem again_tuple {file : Bytes} {lo hi : Nat} {l : List PExpr} (h : Parsed file (.tuple lo hi l)) : parseX (cut file lo hi) = .ok (.tuple (eraseL l)) := by
  obtain ⟨pts, h1, pre, suf, nls, f, rest, rfl, h2⟩ := h
  obtain ⟨pre', f', r, rfl, hfor, h3⟩ := tuple_of h2
  obtain ⟨⟨mid, p, rfl, rfl⟩, _⟩ := (shape_all f').2.1 _ _ _ _ h3
  have h4 : parseTuple f' (toks (mid ++ (.cbrack, p) :: rest)) = .ok (eraseL l, toks rest) := by rw [(erase_all f').2.1, h3]; rfl
  obtain ⟨c, hc, hl⟩ := (local_all f').2.1 _ _ _ h4
  have hcm : c = toks mid ++ [.cbrack] := by
    rw [toks_append, toks_cons, show toks mid ++ .cbrack :: toks rest = (toks mid ++ [.cbrack]) ++ toks rest by simp] at hc
    exact (List.append_cancel_right hc).symm
  rw [← List.append_assoc] at h1
  obtain ⟨_, hlex⟩ := cut_lex rfl rfl h1
  refine parseX_of hlex fun f hf => ?_
  rw [← hcm] at hf ⊢
  rw [hc, startsFor_app (closed_of hl.1 (by intro h; cases h))] at hfor
  rw [List.length_cons] at hf
  match f, hf with
  | f + 1, hf =>
    unfold parseExpr
    rw [peekNl_cons (by intro h; cases h)]
    dsimp only
    rw [hfor]
    have := hl.2 f [] (by omega)
    rw [List.append_nil] at this
    rw [this]; rfl

theorem again_object {file : Bytes} {lo hi : Nat} {m : List (PExpr × PExpr)} (h : Parsed file (.object lo hi m)) :
    (∃ w, cut file lo hi = 123 :: (w ++ [125])) ∧ parseX (cut file lo hi) = .ok (.object (eraseM m)) := by
  obtain ⟨pts, h1, pre, suf, nls, f, rest, rfl, h2⟩ := h
  obtain ⟨pre', f', r, rfl, hfor, h3⟩ := object_of h2
  obtain ⟨⟨mid, p, rfl, rfl⟩, _⟩ := (shape_all f').2.2.1 _ _ _ _ h3
  have h4 : parseObject f' (toks (mid ++ (.cbrace, p) :: rest)) = .ok (eraseM m, toks rest) := by rw [(erase_all f').2.2.1, h3]; rfl
  obtain ⟨c, hc, hl⟩ := (local_all f').2.2.1 _ _ _ h4
  have hcm : c = toks mid ++ [.cbrace] := by
    rw [toks_append, toks_cons, show toks mid ++ .cbrace :: toks rest = (toks mid ++ [.cbrace]) ++ toks rest by simp] at hc
    exact (List.append_cancel_right hc).symm
  rw [← List.append_assoc] at h1
  obtain ⟨hw, hlex⟩ := cut_lex rfl rfl h1
  refine ⟨hw, parseX_of hlex fun f hf => ?_⟩
  rw [← hcm] at hf ⊢
  rw [hc, startsFor_app (closed_of hl.1 (by intro h; cases h))] at hfor
  rw [List.length_cons] at hf
  match f, hf with
  | f + 1, hf =>
    unfold parseExpr
    rw [peekNl_cons (by intro h; cases h)]
    dsimp only
    rw [hfor]
    have := hl.2 f [] (by omega)
    rw [List.append_nil] at this
    rw [this]; rfl

theorem trimSpace_braces (w : Bytes) : trimSpace (123 :: (w ++ [125])) = 123 :: (w ++ [125]) := by
  unfold trimSpace
  rw [List.dropWhile_cons_of_neg (by decide), List.reverse_cons, List.reverse_append, List.reverse_singleton, List.singleton_append, List.cons_append,
    List.dropWhile_cons_of_neg (by decide)]
  simp

/-! ## Nesting -/

mutual
/-- How deep lists and objects are nested. -/
def depth : Expr → Nat
  | .tuple l => depthL l + 1
  | .object m => depthM m + 1
  | _ => 0
def depthL : List Expr → Nat
  | [] => 0
  | e :: l => max (depth e) (depthL l)
def depthM : List (Expr × Expr) → Nat
  | [] => 0
  | (_, e) :: m => max (depth e) (depthM m)
end

theorem depthL_mem (l : List PExpr) : ∀ e ∈ l, depth e.erase ≤ depthL (eraseL l) := by
  induction l with
  | nil => intro e he; cases he
  | cons x l ih =>
    intro e he
    rw [eraseL, depthL]
    rcases List.mem_cons.1 he with rfl | he
    · omega
    · have := ih e he; omega

theorem depthM_mem (m : List (PExpr × PExpr)) : ∀ x ∈ m, depth x.2.erase ≤ depthM (eraseM m) := by
  induction m with
  | nil => intro e he; cases he
  | cons x l ih =>
    intro e he
    obtain ⟨k, v⟩ := x
    rw [eraseM, depthM]
    rcases List.mem_cons.1 he with rfl | he
    · dsimp only; omega
    · have := ih e he; omega

theorem map_ok_out {α β : Type} {x : Out α} {f : α → β} {y : β} (h : x.map f = .ok y) : ∃ a, x = .ok a ∧ f a = y := by
  cases x with
  | ok a => cases h; exact ⟨a, rfl, rfl⟩
  | _ => cases h

variable (ext : Ext)

theorem elemsR_eq (native : PExpr → Out GV) (l : List PExpr) (h : ∀ e ∈ l, native e = nativeE ext e.erase) : elemsR native l = nativeL ext (eraseL l) := by
  induction l with
  | nil => rw [elemsR, eraseL, nativeL]
  | cons e l ih =>
    rw [elemsR, eraseL, nativeL, h e (List.mem_cons_self), ih fun x hx => h x (List.mem_cons_of_mem _ hx)]

theorem membersR_eq (native : PExpr → Out GV) (m : List (PExpr × PExpr)) (h : ∀ x ∈ m, native x.2 = nativeE ext x.2.erase) (obj : List (Bytes × GV)) :
    membersR ext native m obj = nativeO ext (eraseM m) obj := by
  induction m generalizing obj with
  | nil => rw [membersR, eraseM, nativeO]
  | cons x m ih =>
    obtain ⟨k, e⟩ := x
    rw [membersR, eraseM, nativeO, h (k, e) (List.mem_cons_self)]
    have : membersR ext native m = nativeO ext (eraseM m) := funext fun o => ih (fun x hx => h x (List.mem_cons_of_mem _ hx)) o
    rw [this]

/-- What `x` is when the text of a list is parsed again. -/
theorem sliceR_parsed {native : Bytes → PExpr → Out GV} {bs : Bytes} {L : List Expr} (h : parseX bs = .ok (.tuple L))
    (hn : ∀ e, Parsed (fileX bs) e → depth e.erase ≤ depthL L → native (fileX bs) e = nativeE ext e.erase) : sliceR native bs = nativeL ext L := by
  rw [parseX_er] at h
  obtain ⟨e, he, hE⟩ := map_ok_out h
  have hp := parseXP_parsed he
  unfold sliceR
  rw [he]
  cases e with
  | tuple lo hi l =>
    rw [PExpr.erase] at hE
    cases hE
    exact elemsR_eq ext _ l fun x hx => hn x (hp.elems x hx) (depthL_mem l x hx)
  | _ => simp only [PExpr.erase] at hE; cases hE

theorem objectR_parsed {native : Bytes → PExpr → Out GV} {bs : Bytes} {M : List (Expr × Expr)} (h : parseX bs = .ok (.object M))
    (hn : ∀ e, Parsed (fileX bs) e → depth e.erase ≤ depthM M → native (fileX bs) e = nativeE ext e.erase) : objectR ext native bs = nativeO ext M [] := by
  rw [parseX_er] at h
  obtain ⟨e, he, hE⟩ := map_ok_out h
  have hp := parseXP_parsed he
  unfold objectR
  rw [he]
  cases e with
  | object lo hi m =>
    rw [PExpr.erase] at hE
    cases hE
    exact membersR_eq ext _ m (fun x hx => hn x.2 (hp.members x hx) (depthM_mem m x hx)) []
  | _ => simp only [PExpr.erase] at hE; cases hE

theorem native_again : ∀ (n : Nat) (file : Bytes) (e : PExpr), Parsed file e → depth e.erase < n → nativeR ext n file e = nativeE ext e.erase := by
  intro n
  induction n with
  | zero => intro _ _ _ h; cases h
  | succ n ih =>
    intro file e hp hd
    unfold nativeR
    cases e with
    | tuple lo hi l =>
      rw [PExpr.erase] at hd ⊢
      rw [nativeE]
      rw [depth] at hd
      show (sliceR (nativeR ext n) (cut file lo hi)).map mkList = _
      rw [sliceR_parsed ext (again_tuple hp) fun x hx hd' => ih _ _ hx (by omega)]
    | object lo hi m =>
      rw [PExpr.erase] at hd ⊢
      rw [nativeE]
      rw [depth] at hd
      obtain ⟨⟨w, hw⟩, hx⟩ := again_object hp
      show (mapR ext (nativeR ext n) (cut file lo hi)).map GV.map = _
      unfold mapR
      rw [hw, trimSpace_braces, if_neg (by intro h; cases h), if_pos ⟨rfl, by rw [← List.cons_append, List.getLast?_append]; rfl⟩, ← hw,
        objectR_parsed ext hx fun x hx hd' => ih _ _ hx (by omega)]
    | _ => rfl

/-! ## Bodies -/

theorem attrValR_eq (native : PExpr → Out GV) (attrs : List (Bytes × PExpr)) (h : ∀ e ∈ attrs.map Prod.snd, native e = nativeE ext e.erase) :
    attrValR native attrs = attrVal ext (eraseA attrs) := by
  funext k
  unfold attrValR attrVal
  rw [get_eraseA]
  cases hg : GoMap.get? attrs k with
  | none => rfl
  | some e => exact h e (List.mem_map.2 ⟨_, GoMap.get?_mem hg, rfl⟩)

mutual
theorem bodyR_eq (native : PExpr → Out GV) : ∀ (body : PBody) (path : List Bytes), (∀ e ∈ exprs body, native e = nativeE ext e.erase) →
    bodyR ext native path body = decodeBody ext path body.erase
  | .mk attrs blocks, path, h => by
    rw [exprs] at h
    rw [bodyR, PBody.erase, decodeBody, attrValR_eq ext native attrs fun e he => h e (List.mem_append_left _ he),
      blocksR_eq native blocks path 0 fun e he => h e (List.mem_append_right _ he)]
    unfold GoMap.keys
    rw [keys_eraseA]
theorem blocksR_eq (native : PExpr → Out GV) : ∀ (blocks : List (Bytes × List Bytes × PBody)) (path : List Bytes) (i : Nat),
    (∀ e ∈ exprsB blocks, native e = nativeE ext e.erase) → blocksR ext native path i blocks = blockResults ext path i (eraseB blocks)
  | [], path, i, h => by rw [blocksR, eraseB, blockResults]
  | (t, ls, body) :: r, path, i, h => by
    rw [exprsB] at h
    rw [blocksR, eraseB, blockResults, bodyR_eq native body _ fun e he => h e (List.mem_append_left _ he),
      blocksR_eq native r path (i + 1) fun e he => h e (List.mem_append_right _ he)]
end

/-- A bound for all. -/
theorem bound (l : List PExpr) : ∃ N, ∀ e ∈ l, depth e.erase < N := by
  induction l with
  | nil => exact ⟨0, fun e he => by cases he⟩
  | cons x l ih =>
    obtain ⟨N, hN⟩ := ih
    refine ⟨max N (depth x.erase + 1), fun e he => ?_⟩
    rcases List.mem_cons.1 he with rfl | he
    · omega
    · have := hN e he; omega

theorem slice_again (bs : Bytes) : ∃ N, ∀ (ext : Ext) (n : Nat), N ≤ n → sliceR (nativeR ext n) bs = decodeSlice ext bs := by
  unfold decodeSlice
  rw [parseX_er]
  cases hx : parseXP bs with
  | ok e =>
    have hp := parseXP_parsed hx
    obtain ⟨N, hN⟩ := bound [e]
    refine ⟨N, fun ext n hn => ?_⟩
    unfold sliceR
    rw [hx]
    cases e with
    | tuple lo hi l =>
      have := hN _ (List.mem_singleton.2 rfl)
      rw [PExpr.erase, depth] at this
      show elemsR _ l = (match (PExpr.tuple lo hi l).erase with
        | .tuple l => nativeL ext l
        | _ => .err)
      rw [PExpr.erase]
      exact elemsR_eq ext _ l fun x hx => native_again ext n _ x (hp.elems x hx) (by have := depthL_mem l x hx; omega)
    | _ => simp only [Out.map, Out.bind, PExpr.erase]
  | err => exact ⟨0, fun ext n _ => by unfold sliceR; rw [hx]; rfl⟩
  | panic => exact ⟨0, fun ext n _ => by unfold sliceR; rw [hx]; rfl⟩
  | unsupported => exact ⟨0, fun ext n _ => by unfold sliceR; rw [hx]; rfl⟩

theorem map_again (bs : Bytes) : ∃ N, ∀ (ext : Ext) (n : Nat), N ≤ n → mapR ext (nativeR ext n) bs = decodeMap ext bs := by
  unfold mapR decodeMap
  by_cases h1 : trimSpace bs = []
  · exact ⟨0, fun ext n _ => by rw [if_pos h1, if_pos h1]⟩
  by_cases h2 : (trimSpace bs).head? = some 123 ∧ (trimSpace bs).getLast? = some 125
  · rw [parseX_er]
    have : ∃ N, ∀ (ext : Ext) (n : Nat), N ≤ n → objectR ext (nativeR ext n) bs = ((parseXP bs).map PExpr.erase).bind fun e =>
        match e with
        | .object m => nativeO ext m []
        | _ => .err := by
      cases hx : parseXP bs with
      | ok e =>
        have hp := parseXP_parsed hx
        obtain ⟨N, hN⟩ := bound [e]
        refine ⟨N, fun ext n hn => ?_⟩
        unfold objectR
        rw [hx]
        cases e with
        | object lo hi m =>
          have := hN _ (List.mem_singleton.2 rfl)
          rw [PExpr.erase, depth] at this
          show membersR ext _ m [] = (match (PExpr.object lo hi m).erase with
            | .object m => nativeO ext m []
            | _ => .err)
          rw [PExpr.erase]
          exact membersR_eq ext _ m (fun x hx => native_again ext n _ x.2 (hp.members x hx) (by have := depthM_mem m x hx; omega)) []
        | _ => simp only [Out.map, Out.bind, PExpr.erase]
      | err => exact ⟨0, fun ext n _ => by unfold objectR; rw [hx]; rfl⟩
      | panic => exact ⟨0, fun ext n _ => by unfold objectR; rw [hx]; rfl⟩
      | unsupported => exact ⟨0, fun ext n _ => by unfold objectR; rw [hx]; rfl⟩
    obtain ⟨N, hN⟩ := this
    exact ⟨N, fun ext n hn => by rw [if_neg h1, if_neg h1, if_pos h2, if_pos h2, hN ext n hn]; rfl⟩
  · rw [parseConfig_er, ofParse_map]
    cases hc : parseConfigP bs with
    | error x => exact ⟨0, fun ext n _ => by rw [if_neg h1, if_neg h1, if_neg h2, if_neg h2]; cases x <;> rfl⟩
    | ok body =>
      obtain ⟨N, hN⟩ := bound (exprs body)
      refine ⟨N, fun ext n hn => ?_⟩
      rw [if_neg h1, if_neg h1, if_neg h2, if_neg h2]
      exact bodyR_eq ext _ body [] fun e he => native_again ext n _ e (config_parsed hc e he) (by have := hN e he; omega)

end Verif.HclAgain
