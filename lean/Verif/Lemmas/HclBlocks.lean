import Verif.Model.HclBlocks
import Verif.Lemmas.HclAgain
import Verif.Lemmas.HclBlocksLocal
/-!
# Parsing blocks a second time
-/
namespace Verif.HclAgain
open Hcl

/-! ## Without positions -/

def erK (x : Except Bad (BBody × Nat × List PTok)) : Except Bad (Body × List Tok) := x.map fun y => (y.1.erase, toks y.2.2)

theorem BBody.attrs_erase (x : BBody) : x.erase.attrs = x.attrs := by
  cases x; rw [BBody.erase]; rfl

theorem BBody.blocks_erase (x : BBody) : x.erase.blocks = eraseK x.blocks := by
  cases x; rw [BBody.erase]; rfl

theorem labelsB_er (ts : List PTok) : parseLabels (toks ts) = (parseLabelsB ts).map fun x => (x.1, toks x.2.2) := by
  induction ts with
  | nil => rfl
  | cons x r ih =>
    obtain ⟨t, p⟩ := x
    rw [toks_cons]
    cases t with
    | str s => rw [parseLabels, parseLabelsB, ih]; cases parseLabelsB r <;> rfl
    | ident s => rw [parseLabels, parseLabelsB, ih]; cases parseLabelsB r <;> rfl
    | _ => rfl

theorem consAttrB_er (n : Bytes) (e : Expr) (x : BBody × Nat × List PTok) : consAttr n e (x.1.erase, toks x.2.2) = erK (consAttrB n e x) := by
  unfold consAttr consAttrB
  dsimp only
  rw [BBody.attrs_erase, BBody.blocks_erase]
  split
  · rfl
  · simp only [erK, Except.map, BBody.erase]

theorem consBlockB_er (n : Bytes) (ls : List Bytes) (lo hi : Nat) (inner : BBody) (x : BBody × Nat × List PTok) :
    consBlock n ls inner.erase (x.1.erase, toks x.2.2) = ((consBlockB n ls lo hi inner x).1.erase, toks (consBlockB n ls lo hi inner x).2.2) := by
  unfold consBlock consBlockB
  dsimp only
  rw [BBody.attrs_erase, BBody.blocks_erase, BBody.erase, eraseK]

theorem bodyB_er : ∀ f, (∀ top ts, parseBody top f (toks ts) = erK (parseBodyB top f ts)) ∧ ∀ ts, parseBlock f (toks ts) = erK (parseBlockB f ts) := by
  intro f
  induction f with
  | zero => exact ⟨fun _ _ => (by rw [parseBody, parseBodyB]; rfl), fun _ => (by rw [parseBlock, parseBlockB]; rfl)⟩
  | succ f ih =>
    obtain ⟨hB, hK⟩ := ih
    constructor
    · intro top ts
      have hblock : ∀ (n : Bytes) (r : List PTok), ((parseLabels (toks r)).bind fun ls => (parseBlock f ls.2).bind fun inner =>
          (endItem inner.2).bind fun r' => (parseBody top f r').map fun x => consBlock n ls.1 inner.1 x) =
          erK ((parseLabelsB r).bind fun ls => (parseBlockB f ls.2.2).bind fun inner =>
          (endItemP inner.2.2).bind fun r' => (parseBodyB top f r').map fun x => consBlockB n ls.1 ls.2.1 inner.2.1 inner.1 x) := by
        intro n r
        rw [labelsB_er]
        refine bind_er fun ls => ?_
        dsimp only
        rw [hK]
        refine bind_er fun inner => ?_
        dsimp only
        rw [endItem_er]
        refine bind_er fun r' => ?_
        rw [hB]
        cases parseBodyB top f r' with
        | error e => rfl
        | ok x => exact congrArg Except.ok (consBlockB_er n ls.1 ls.2.1 inner.2.1 inner.1 x)
      rw [parseBody, parseBodyB, skipNl_toks]
      cases skipNlP ts with
      | nil =>
        show (if _ then _ else _) = erK (if _ then _ else _)
        split
        · simp only [erK, Except.map, BBody.erase, eraseK]; rfl
        · rfl
      | cons x r =>
        obtain ⟨t, p⟩ := x
        rw [toks_cons]
        cases t with
        | cbrace =>
          show (if _ then _ else _) = erK (if _ then _ else _)
          split
          · rfl
          · simp only [erK, Except.map, BBody.erase, eraseK]
        | ident n =>
          cases r with
          | nil => exact hblock n []
          | cons y r =>
            obtain ⟨t, q⟩ := y
            cases t with
            | eq =>
              rw [toks_cons]
              dsimp only
              rw [(erase_all f).1]
              refine bind_er fun e => ?_
              dsimp only
              rw [endItem_er]
              refine bind_er fun r' => ?_
              rw [hB]
              exact bind_er fun x => consAttrB_er n e.1.erase x
            | _ => exact hblock n (_ :: r)
        | _ => rfl
    · intro ts
      cases ts with
      | nil => rfl
      | cons x r =>
        obtain ⟨t, p⟩ := x
        rw [toks_cons]
        unfold parseBlock parseBlockB
        cases t with
        | nl => exact hB false r
        | cbrace => simp only [erK, Except.map, BBody.erase, eraseK]
        | _ => rfl

theorem configB_er (t : Bytes) : parseConfig t = (parseConfigB t).map BBody.erase := by
  unfold parseConfig parseConfigB
  rw [lexP_er .start 0]
  cases lexP .start 0 t with
  | error e => rfl
  | ok ts =>
    show (parseBody true (3 * (toks ts).length + 3) (toks ts)).map _ = ((parseBodyB true (3 * ts.length + 3) ts).map _).map _
    rw [show (toks ts).length = ts.length from List.length_map _, (bodyB_er _).1]
    cases parseBodyB true (3 * ts.length + 3) ts <;> rfl

/-! ## Where blocks are -/

/-- The block is read somewhere among the tokens, from behind its opening brace. -/
def SubK (ts : List PTok) (lo hi : Nat) (inner : BBody) : Prop :=
  ∃ pre p r f rest, ts = pre ++ (.obrace, p) :: r ∧ lo = p + 1 ∧ parseBlockB f r = .ok (inner, hi, rest)

theorem SubK.mono {ts : List PTok} {lo hi : Nat} {inner : BBody} (pre : List PTok) (h : SubK ts lo hi inner) : SubK (pre ++ ts) lo hi inner := by
  obtain ⟨a, p, r, f, rest, rfl, h⟩ := h
  exact ⟨pre ++ a, p, r, f, rest, (List.append_assoc _ _ _).symm, h⟩

theorem labelsB_split (ts : List PTok) : ∀ ls lo rest, parseLabelsB ts = .ok (ls, lo, rest) → ∃ c p, ts = c ++ (.obrace, p) :: rest ∧ lo = p + 1 := by
  induction ts with
  | nil => intro ls lo rest h; cases h
  | cons x r ih =>
    intro ls lo rest h
    obtain ⟨t, p⟩ := x
    cases t with
    | obrace => cases h; exact ⟨[], p, rfl, rfl⟩
    | str s =>
      rw [parseLabelsB] at h
      obtain ⟨⟨a, b, c⟩, h1, h2⟩ := map_ok h
      cases h2
      obtain ⟨c, q, hc, hl⟩ := ih _ _ _ h1
      exact ⟨(.str s, p) :: c, q, by rw [hc]; rfl, hl⟩
    | ident s =>
      rw [parseLabelsB] at h
      obtain ⟨⟨a, b, c⟩, h1, h2⟩ := map_ok h
      cases h2
      obtain ⟨c, q, hc, hl⟩ := ih _ _ _ h1
      exact ⟨(.ident s, p) :: c, q, by rw [hc]; rfl, hl⟩
    | _ => cases h

/-- What was consumed: up to the closing brace of a block, or all of a file. -/
def Ends (top : Bool) (ts : List PTok) (hi : Nat) (rest : List PTok) : Prop := if top then ∃ c, ts = c ++ rest else ∃ mid, ts = mid ++ (.cbrace, hi) :: rest

theorem Ends.mono {top : Bool} {ts : List PTok} {hi : Nat} {rest : List PTok} (pre : List PTok) (h : Ends top ts hi rest) : Ends top (pre ++ ts) hi rest := by
  cases top with
  | true => obtain ⟨c, rfl⟩ := h; exact ⟨pre ++ c, (List.append_assoc _ _ _).symm⟩
  | false => obtain ⟨c, rfl⟩ := h; exact ⟨pre ++ c, (List.append_assoc _ _ _).symm⟩

theorem bodyB_shape : ∀ f, (∀ top ts body hi rest, parseBodyB top f ts = .ok (body, hi, rest) →
      Ends top ts hi rest ∧ ∀ x ∈ body.blocks, SubK ts x.2.2.1 x.2.2.2.1 x.2.2.2.2) ∧
    ∀ ts body hi rest, parseBlockB f ts = .ok (body, hi, rest) → Ends false ts hi rest ∧ ∀ x ∈ body.blocks, SubK ts x.2.2.1 x.2.2.2.1 x.2.2.2.2 := by
  intro f
  induction f with
  | zero =>
    refine ⟨fun _ _ _ _ _ h => ?_, fun _ _ _ _ h => ?_⟩
    · rw [parseBodyB] at h; cases h
    · rw [parseBlockB] at h; cases h
  | succ f ih =>
    obtain ⟨hB, hK⟩ := ih
    refine ⟨fun top ts body hi rest h => ?_, fun ts body hi rest h => ?_⟩
    · obtain ⟨c, hc⟩ := skipNlP_split ts
      unfold parseBodyB at h
      split at h
      · split at h
        · next htop => cases h; subst htop; exact ⟨⟨ts, (List.append_nil _).symm⟩, fun e he => by cases he⟩
        · cases h
      · next p r hp =>
        split at h
        · cases h
        · next htop =>
          cases h
          cases top with
          | true => exact absurd rfl htop
          | false => exact ⟨⟨c, by rw [hc, hp]⟩, fun e he => by cases he⟩
      · next n p q r hp =>
        obtain ⟨⟨e, r1⟩, h1, h⟩ := bind_ok h
        obtain ⟨r2, h2, h⟩ := bind_ok h
        obtain ⟨⟨body', hi', r3⟩, h3, h⟩ := bind_ok h
        obtain ⟨c1, hc1⟩ := (shape_all f).1 _ _ _ _ h1
        obtain ⟨c2, hc2⟩ := endItemP_suffix h2
        obtain ⟨he, hs⟩ := hB _ _ _ _ _ h3
        dsimp only at hc2
        unfold consAttrB at h
        split at h
        · cases h
        · cases h
          have hts : ts = (c ++ (.ident n, p) :: (.eq, q) :: (c1 ++ c2)) ++ r2 := by rw [hc, hp, hc1, hc2]; simp
          exact ⟨by rw [hts]; exact he.mono _, fun x hx => by rw [hts]; exact (hs x hx).mono _⟩
      · next n p r hne hp =>
        obtain ⟨⟨ls, lo, r1⟩, h1, h⟩ := bind_ok h
        obtain ⟨⟨inner, hi1, r2⟩, h2, h⟩ := bind_ok h
        obtain ⟨r3, h3, h⟩ := bind_ok h
        obtain ⟨⟨body', hi', r4⟩, h4, h⟩ := map_ok h
        obtain ⟨c1, q, hc1, hlo⟩ := labelsB_split _ _ _ _ h1
        obtain ⟨⟨c2, hc2⟩, hs2⟩ := hK _ _ _ _ h2
        obtain ⟨c3, hc3⟩ := endItemP_suffix h3
        obtain ⟨he, hs⟩ := hB _ _ _ _ _ h4
        dsimp only at hc2 hc3
        unfold consBlockB at h
        cases h
        have hts : ts = (c ++ (.ident n, p) :: (c1 ++ (.obrace, q) :: (c2 ++ (.cbrace, hi1) :: c3))) ++ r3 := by rw [hc, hp, hc1, hc2, hc3]; simp
        have hts' : ts = (c ++ (.ident n, p) :: c1) ++ (.obrace, q) :: r1 := by rw [hc, hp, hc1]; simp
        refine ⟨by rw [hts]; exact he.mono _, fun x hx => ?_⟩
        rcases List.mem_cons.1 hx with rfl | hx
        · exact ⟨_, q, r1, f, r2, hts', hlo, h2⟩
        · rw [hts]; exact (hs _ hx).mono _
      · cases h
    · unfold parseBlockB at h
      split at h
      · next p r =>
        obtain ⟨he, hs⟩ := hB _ _ _ _ _ h
        exact ⟨he.mono [(.nl, p)], fun x hx => (hs x hx).mono [(.nl, p)]⟩
      · next p r =>
        cases h
        exact ⟨⟨[], rfl⟩, fun x hx => by cases hx⟩
      · cases h

/-- The block is one of the file. -/
def ParsedK (file : Bytes) (lo hi : Nat) (inner : BBody) : Prop := ∃ pts, lexP .start 0 file = .ok pts ∧ SubK pts lo hi inner

theorem configB_parsed {file : Bytes} {body : BBody} (h : parseConfigB file = .ok body) : ∀ x ∈ body.blocks, ParsedK file x.2.2.1 x.2.2.2.1 x.2.2.2.2 := by
  unfold parseConfigB at h
  obtain ⟨pts, h1, h⟩ := bind_ok h
  obtain ⟨⟨body', hi, r⟩, h2, rfl⟩ := map_ok h
  exact fun x hx => ⟨pts, h1, ((bodyB_shape _).1 _ _ _ _ _ h2).2 x hx⟩

theorem ParsedK.blocks {file : Bytes} {lo hi : Nat} {inner : BBody} (h : ParsedK file lo hi inner) : ∀ x ∈ inner.blocks, ParsedK file x.2.2.1 x.2.2.2.1 x.2.2.2.2 := by
  obtain ⟨pts, h1, pre, p, r, f, rest, rfl, _, h2⟩ := h
  intro x hx
  have := (((bodyB_shape f).2 _ _ _ _ h2).2 x hx).mono (pre ++ [(.obrace, p)])
  rw [List.append_assoc, List.singleton_append] at this
  exact ⟨_, h1, this⟩

/-! ## The text of a block -/

theorem lexEnd_close {s : LState} {M : List Tok} (h : lex s [125] = .ok (M ++ [.cbrace])) : lexEnd s = .ok M := by
  rw [lex] at h
  obtain ⟨⟨s', ts⟩, h1, h2⟩ := bind_ok h
  obtain ⟨ts', h3, h4⟩ := map_ok h2
  dsimp only at h3 h4
  rw [lex] at h3
  have fin : ∀ x : List Tok, s' = .start → ts = x ++ [.cbrace] → .ok x = (Except.ok M : Except Bad (List Tok)) := by
    intro x hs ht
    subst hs ht
    cases h3
    rw [List.append_nil] at h4
    rw [List.append_cancel_right h4]
  cases s with
  | start => cases h1; exact fin [] rfl rfl
  | ident acc => cases h1; exact fin [_] rfl rfl
  | numI n => cases h1; exact fin [_] rfl rfl
  | numDot n => cases h1
  | numF n m k => cases h1; exact fin [_] rfl rfl
  | str acc => cases h1; cases h3
  | esc acc => cases h1
  | strD acc => cases h1; cases h3
  | cr => cases h1

theorem lex_close (w : Bytes) : ∀ s M, lex s (w ++ [125]) = .ok (M ++ [.cbrace]) → lex s w = .ok M := by
  induction w with
  | nil => intro s M h; rw [lex]; exact lexEnd_close h
  | cons c r ih =>
    intro s M h
    rw [List.cons_append, lex] at h
    obtain ⟨⟨s', ts⟩, h1, h2⟩ := bind_ok h
    obtain ⟨ts', h3, h4⟩ := map_ok h2
    dsimp only at h3 h4
    have hl : ∃ M', ts' = M' ++ [.cbrace] ∧ M = ts ++ M' := by
      rcases List.eq_nil_or_concat ts' with rfl | ⟨M', t, rfl⟩
      · exfalso
        have hne : ∀ (w : Bytes) (s : LState), lex s (w ++ [125]) ≠ .ok [] := by
          intro w
          induction w with
          | nil =>
            intro s h
            rw [List.nil_append, lex] at h
            obtain ⟨⟨s', ts⟩, h1, h2⟩ := bind_ok h
            obtain ⟨ts', h3, h4⟩ := map_ok h2
            dsimp only at h3 h4
            rw [lex] at h3
            have hts := (List.append_eq_nil_iff.1 h4).1
            cases s with
            | start => cases h1; cases hts
            | ident acc => cases h1; cases hts
            | numI n => cases h1; cases hts
            | numDot n => cases h1
            | numF n m k => cases h1; cases hts
            | str acc => cases h1; cases h3
            | esc acc => cases h1
            | strD acc => cases h1; cases h3
            | cr => cases h1
          | cons c r ih =>
            intro s h
            rw [List.cons_append, lex] at h
            obtain ⟨⟨s', ts⟩, h1, h2⟩ := bind_ok h
            obtain ⟨ts', h3, h4⟩ := map_ok h2
            dsimp only at h3 h4
            rw [(List.append_eq_nil_iff.1 h4).2] at h3
            exact ih _ h3
        exact hne r s' h3
      · rw [List.concat_eq_append, ← List.append_assoc] at h4
        obtain ⟨h5, h6⟩ := List.append_inj' h4 rfl
        cases h6
        exact ⟨M', List.concat_eq_append, h5.symm⟩
    obtain ⟨M', rfl, rfl⟩ := hl
    rw [lex, h1]
    show (lex s' r).map _ = _
    rw [ih _ _ h3]; rfl

theorem again_block {file : Bytes} {lo hi : Nat} {inner : BBody} (h : ParsedK file lo hi inner) : parseConfig (blockBytes file lo hi) = .ok inner.erase := by
  obtain ⟨pts, h1, pre, p, r, f, rest, rfl, rfl, h2⟩ := h
  obtain ⟨⟨mid, rfl⟩, _⟩ := (bodyB_shape f).2 _ _ _ _ h2
  have h4 : parseBlock f (toks (mid ++ (.cbrace, hi) :: rest)) = .ok (inner.erase, toks rest) := by rw [(bodyB_er f).2, h2]; rfl
  obtain ⟨c, hc, hl⟩ := (body_local f).2 _ _ _ h4
  have hcm : c = toks mid := by
    rw [toks_append, toks_cons] at hc
    exact (List.append_cancel_right hc).symm
  subst hcm
  obtain ⟨w, z, rfl, hlo, _, h5⟩ := lexP_split (t := .obrace) rfl _ _ _ _ _ _ h1
  obtain ⟨w2, z2, rfl, hp, h6, _⟩ := lexP_split (t := .cbrace) rfl _ _ _ _ _ _ h5
  have hcut : blockBytes (w ++ 123 :: (w2 ++ 125 :: z2)) (p + 1) hi = w2 := by
    have e : w ++ 123 :: (w2 ++ 125 :: z2) = ((w ++ [123]) ++ w2) ++ (125 :: z2) := by simp
    unfold blockBytes cut
    rw [e, List.take_left' (by simp only [List.length_append, List.length_cons, List.length_nil]; omega),
      List.drop_left' (by simp only [List.length_append, List.length_cons, List.length_nil]; omega)]
  rw [hcut]
  have hlex : lex .start w2 = .ok (toks mid) := by
    refine lex_close w2 _ _ ?_
    rw [lexP_er .start (p + 1), h6]
    show Except.ok _ = _
    rw [toks_append]; rfl
  unfold parseConfig
  rw [hlex]
  show (parseBody true (3 * (toks mid).length + 3) (toks mid)).map Prod.fst = _
  rw [hl.2 _ (by omega)]; rfl

/-! ## Texts that begin with a brace -/

theorem lex_brace (v : Bytes) : (∀ ts, (v.dropWhile isSpace).head? = some 123 → lex .start v = .ok ts → ∃ r, skipNl ts = .obrace :: r) ∧
    ∀ ts, (v.dropWhile isSpace).head? = some 123 → lex .cr v = .ok ts → ∃ r, skipNl ts = .obrace :: r := by
  induction v with
  | nil => exact ⟨fun _ h => (by cases h), fun _ h => (by cases h)⟩
  | cons c v ih =>
    have nlCase : ∀ s ts, lexStep s c = .ok (.start, [.nl]) → (v.dropWhile isSpace).head? = some 123 → lex s (c :: v) = .ok ts → ∃ r, skipNl ts = .obrace :: r := by
      intro s ts hs hd h
      rw [lex, hs] at h
      obtain ⟨ts', h1, rfl⟩ := map_ok h
      exact ih.1 ts' hd h1
    constructor
    · intro ts hd h
      by_cases hsp : isSpace c = true
      · rw [List.dropWhile_cons_of_pos hsp] at hd
        by_cases h10 : c = 10
        · subst h10; exact nlCase _ ts rfl hd h
        by_cases h13 : c = 13
        · subst h13
          rw [lex] at h
          obtain ⟨ts', h1, rfl⟩ := map_ok (show (lex .cr v).map (fun ts => [] ++ ts) = .ok ts from h)
          exact ih.2 ts' hd h1
        by_cases h32 : c = 32
        · subst h32
          rw [lex] at h
          obtain ⟨ts', h1, rfl⟩ := map_ok (show (lex .start v).map (fun ts => [] ++ ts) = .ok ts from h)
          exact ih.1 ts' hd h1
        by_cases h9 : c = 9
        · subst h9
          rw [lex] at h
          obtain ⟨ts', h1, rfl⟩ := map_ok (show (lex .start v).map (fun ts => [] ++ ts) = .ok ts from h)
          exact ih.1 ts' hd h1
        have hc : c = 11 ∨ c = 12 := by
          unfold isSpace at hsp
          simp only [Bool.or_eq_true, Bool.and_eq_true, decide_eq_true_eq, UInt8.le_iff_toNat_le] at hsp
          have e : ∀ k : Nat, c.toNat = k → c = UInt8.ofNat k := fun k h => by rw [← h, UInt8.ofNat_toNat]
          rcases hsp with h | ⟨ha, hb⟩
          · exact absurd h h32
          · have ha' : 9 ≤ c.toNat := ha
            have hb' : c.toNat ≤ 13 := hb
            have : c.toNat = 9 ∨ c.toNat = 10 ∨ c.toNat = 11 ∨ c.toNat = 12 ∨ c.toNat = 13 := by omega
            rcases this with h | h | h | h | h
            · exact absurd (e _ h) h9
            · exact absurd (e _ h) h10
            · exact .inl (e _ h)
            · exact .inr (e _ h)
            · exact absurd (e _ h) h13
        rw [lex] at h
        rcases hc with rfl | rfl <;> cases h
      · rw [List.dropWhile_cons_of_neg hsp, List.head?_cons] at hd
        cases hd
        rw [lex] at h
        obtain ⟨ts', h1, rfl⟩ := map_ok (show (lex .start v).map (fun ts => [.obrace] ++ ts) = .ok ts from h)
        exact ⟨ts', rfl⟩
    · intro ts hd h
      by_cases h10 : c = 10
      · subst h10
        rw [List.dropWhile_cons_of_pos (by decide)] at hd
        exact nlCase _ ts rfl hd h
      · rw [lex, show lexStep .cr c = .error .invalid from if_neg h10] at h
        cases h

theorem trimSpace_head (v : Bytes) {c : UInt8} (h : (trimSpace v).head? = some c) : (v.dropWhile isSpace).head? = some c := by
  unfold trimSpace at h
  generalize v.dropWhile isSpace = x at h
  have hpre : (x.reverse.dropWhile isSpace).reverse <+: x := by
    have := List.reverse_prefix.2 (List.dropWhile_suffix (l := x.reverse) isSpace)
    rwa [List.reverse_reverse] at this
  obtain ⟨t, ht⟩ := hpre
  cases hy : (x.reverse.dropWhile isSpace).reverse with
  | nil => rw [hy] at h; cases h
  | cons a l => rw [hy] at h ht; rw [← ht]; exact h

/-- No file begins with a brace. -/
theorem no_brace {v : Bytes} {body : Body} (h : (trimSpace v).head? = some 123) (hp : parseConfig v = .ok body) : False := by
  unfold parseConfig at hp
  obtain ⟨ts, h1, hp⟩ := bind_ok hp
  obtain ⟨x, h2, _⟩ := map_ok hp
  obtain ⟨r, hr⟩ := (lex_brace v).1 ts (trimSpace_head v h) h1
  unfold parseBody at h2
  rw [hr] at h2
  cases h2

/-! ## Nesting -/

mutual
/-- How deep blocks are nested. -/
def depthK : Body → Nat
  | .mk _ blocks => depthKs blocks + 1
def depthKs : List (Bytes × List Bytes × Body) → Nat
  | [] => 0
  | (_, _, body) :: r => max (depthK body) (depthKs r)
end

theorem readBlocks_eq (read : Bytes → Except Bad Body) (file : Bytes) (l : List (Bytes × List Bytes × Nat × Nat × BBody))
    (h : ∀ x ∈ l, depthK x.2.2.2.2.erase ≤ depthKs (eraseK l) → read (blockBytes file x.2.2.1 x.2.2.2.1) = .ok x.2.2.2.2.erase) :
    readBlocks read file l = .ok (eraseK l) := by
  induction l with
  | nil => rw [readBlocks, eraseK]
  | cons x l ih =>
    obtain ⟨t, ls, lo, hi, body⟩ := x
    rw [eraseK, depthKs] at h
    rw [readBlocks, eraseK, h _ (List.mem_cons_self) (by dsimp only; omega), ih fun x hx hd => h x (List.mem_cons_of_mem _ hx) (by omega)]
    rfl

theorem readText_ok : ∀ (n : Nat) (file : Bytes) (body : Body), parseConfig file = .ok body → depthK body ≤ n → readText n file = .ok body := by
  intro n
  induction n with
  | zero => intro file body _ hd; cases body; rw [depthK] at hd; omega
  | succ n ih =>
    intro file body h hd
    rw [configB_er] at h
    obtain ⟨bb, hb, rfl⟩ := map_ok h
    rw [readText, hb]
    show (readBlocks (readText n) file bb.blocks).map _ = _
    cases bb with
    | mk attrs blocks =>
      rw [BBody.erase, depthK] at hd
      rw [BBody.erase, show (BBody.mk attrs blocks).blocks = blocks from rfl,
        readBlocks_eq (readText n) file blocks fun x hx hd' => ih _ _ (again_block (configB_parsed hb x hx)) (by omega)]
      rfl

theorem readText_again (file : Bytes) : ∃ N, ∀ n, N ≤ n → readText n file = parseConfig file := by
  cases h : parseConfig file with
  | ok body => exact ⟨depthK body, fun n hn => readText_ok n file body h hn⟩
  | error e =>
    refine ⟨1, fun n hn => ?_⟩
    match n, hn with
    | n + 1, _ =>
      rw [configB_er] at h
      rw [readText]
      cases hb : parseConfigB file with
      | ok bb => rw [hb] at h; cases h
      | error e' => rw [hb] at h; cases h; rfl

end Verif.HclAgain
