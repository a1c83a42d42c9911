import Verif.Lemmas.HclAgainErase
import Verif.Lemmas.HclAgainLocal
/-!
# The range of a list or object, and what is read inside of it
-/
namespace Verif.HclAgain
open Hcl

/-! ## The bytes of a bracket -/

/-- The brackets and their bytes. -/
def brByte : Tok → Option UInt8
  | .obrace => some 123
  | .cbrace => some 125
  | .obrack => some 91
  | .cbrack => some 93
  | _ => none

theorem lexStart_br {c ct : UInt8} {s : LState} {ts u v : List Tok} {t : Tok} (ht : brByte t = some ct) (h : lexStart c = .ok (s, ts)) (hs : ts = u ++ t :: v) :
    u = [] ∧ v = [] ∧ c = ct ∧ s = .start := by
  have key : ∀ (x : Tok), ts = [x] → (brByte x = none ∨ (brByte x = some c ∧ s = .start)) → u = [] ∧ v = [] ∧ c = ct ∧ s = .start := by
    intro x hx hb
    rw [hx] at hs
    cases u with
    | nil =>
      obtain ⟨rfl, rfl⟩ := List.cons.inj hs
      rcases hb with hb | hb
      · rw [hb] at ht; cases ht
      · rw [ht] at hb; cases hb.1; exact ⟨rfl, rfl, rfl, hb.2⟩
    | cons a l => have := congrArg List.length hs; simp at this
  have none' : ts = [] → u = [] ∧ v = [] ∧ c = ct ∧ s = .start := by
    intro hx; rw [hx] at hs; cases u <;> cases hs
  unfold lexStart at h
  by_cases hc : c = 32 ∨ c = 9
  · rw [if_pos hc] at h; cases h; exact none' rfl
  rw [if_neg hc] at h; clear hc
  by_cases hc : c = 10
  · rw [if_pos hc] at h; cases h; exact key _ rfl (.inl rfl)
  rw [if_neg hc] at h; clear hc
  by_cases hc : c = 13
  · rw [if_pos hc] at h; cases h; exact none' rfl
  rw [if_neg hc] at h; clear hc
  by_cases hc : c = 34
  · rw [if_pos hc] at h; cases h; exact none' rfl
  rw [if_neg hc] at h; clear hc
  by_cases hc : c = 123
  · rw [if_pos hc] at h; subst hc; cases h; exact key _ rfl (.inr ⟨rfl, rfl⟩)
  rw [if_neg hc] at h; clear hc
  by_cases hc : c = 125
  · rw [if_pos hc] at h; subst hc; cases h; exact key _ rfl (.inr ⟨rfl, rfl⟩)
  rw [if_neg hc] at h; clear hc
  by_cases hc : c = 91
  · rw [if_pos hc] at h; subst hc; cases h; exact key _ rfl (.inr ⟨rfl, rfl⟩)
  rw [if_neg hc] at h; clear hc
  by_cases hc : c = 93
  · rw [if_pos hc] at h; subst hc; cases h; exact key _ rfl (.inr ⟨rfl, rfl⟩)
  rw [if_neg hc] at h; clear hc
  by_cases hc : c = 40
  · rw [if_pos hc] at h; cases h; exact key _ rfl (.inl rfl)
  rw [if_neg hc] at h; clear hc
  by_cases hc : c = 41
  · rw [if_pos hc] at h; cases h; exact key _ rfl (.inl rfl)
  rw [if_neg hc] at h; clear hc
  by_cases hc : c = 44
  · rw [if_pos hc] at h; cases h; exact key _ rfl (.inl rfl)
  rw [if_neg hc] at h; clear hc
  by_cases hc : c = 61
  · rw [if_pos hc] at h; cases h; exact key _ rfl (.inl rfl)
  rw [if_neg hc] at h; clear hc
  by_cases hc : c = 58
  · rw [if_pos hc] at h; cases h; exact key _ rfl (.inl rfl)
  rw [if_neg hc] at h; clear hc
  by_cases hc : c = 45
  · rw [if_pos hc] at h; cases h; exact key _ rfl (.inl rfl)
  rw [if_neg hc] at h; clear hc
  by_cases hc : identStart c = true
  · rw [if_pos hc] at h; cases h; exact none' rfl
  rw [if_neg hc] at h; clear hc
  by_cases hc : isDigit c = true
  · rw [if_pos hc] at h; cases h; exact none' rfl
  rw [if_neg hc] at h; clear hc
  cases h

theorem none_br {s : LState} {c ct : UInt8} {u v : List Tok} {t : Tok} (hs : [] = u ++ t :: v) : v = [] ∧ c = ct ∧ s = .start := by
  cases u <;> cases hs

theorem lexStr_br {acc : Bytes} {c ct : UInt8} {s : LState} {ts u v : List Tok} {t : Tok} (ht : brByte t = some ct) (h : lexStr acc c = .ok (s, ts)) (hs : ts = u ++ t :: v) :
    v = [] ∧ c = ct ∧ s = .start := by
  unfold lexStr at h
  split at h
  · split at h
    · cases h
      cases u with
      | nil => cases hs; cases ht
      | cons a l => have := congrArg List.length hs; simp at this
    · cases h
  split at h
  · cases h; exact none_br hs
  split at h
  · cases h
  split at h
  · cases h
  split at h
  · cases h; exact none_br hs
  · cases h; exact none_br hs

theorem cons_br {c ct : UInt8} {s : LState} {ts u v : List Tok} {t x : Tok} (ht : brByte t = some ct) (hx : brByte x = none)
    (h : (lexStart c).map (fun r => (r.1, x :: r.2)) = .ok (s, ts)) (hs : ts = u ++ t :: v) : v = [] ∧ c = ct ∧ s = .start := by
  obtain ⟨⟨s', ts'⟩, h1, h2⟩ := map_ok h
  cases h2
  cases u with
  | nil => cases hs; rw [hx] at ht; cases ht
  | cons a l =>
    rw [List.cons_append] at hs
    exact (lexStart_br ht h1 (List.cons.inj hs).2).2

theorem lexStep_br {s s' : LState} {c ct : UInt8} {ts u v : List Tok} {t : Tok} (ht : brByte t = some ct) (h : lexStep s c = .ok (s', ts)) (hs : ts = u ++ t :: v) :
    v = [] ∧ c = ct ∧ s' = .start := by
  unfold lexStep at h
  split at h
  · exact (lexStart_br ht h hs).2
  · split at h
    · cases h; exact none_br hs
    split at h
    · cases h
    · exact cons_br ht rfl h hs
  · split at h
    · cases h; exact none_br hs
    split at h
    · cases h; exact none_br hs
    split at h
    · cases h
    · exact cons_br ht rfl h hs
  · split at h
    · cases h; exact none_br hs
    · cases h
  · split at h
    · cases h; exact none_br hs
    split at h
    · cases h
    · exact cons_br ht rfl h hs
  · exact lexStr_br ht h hs
  · split at h
    · cases h
    · exact lexStr_br ht h hs
  · split at h
    · cases h; exact none_br hs
    split at h
    · cases h; exact none_br hs
    split at h
    · cases h; exact none_br hs
    split at h
    · cases h; exact none_br hs
    split at h
    · cases h
    · cases h
  · split at h
    · cases h
      cases u with
      | nil => cases hs; cases ht
      | cons a l => have := congrArg List.length hs; simp at this
    · cases h

theorem lexEnd_br {s : LState} {ct : UInt8} {ts u v : List Tok} {t : Tok} (ht : brByte t = some ct) (h : lexEnd s = .ok ts) (hs : ts = u ++ t :: v) : False := by
  have one : ∀ x, brByte x = none → [x] = u ++ t :: v → False := by
    intro x hx hs
    cases u with
    | nil => cases hs; rw [hx] at ht; cases ht
    | cons a l => have := congrArg List.length hs; simp at this
  unfold lexEnd at h
  split at h
  · cases h; cases u <;> cases hs
  · cases h; exact one _ rfl hs
  · cases h; exact one _ rfl hs
  · cases h
  · cases h; exact one _ rfl hs
  · cases h
  · cases h
  · cases h
  · cases h

/-- A bracket among the tokens is a byte of the text, and the text up to it and the text behind it have the tokens up to it and behind it. -/
theorem lexP_split {t : Tok} {ct : UInt8} (ht : brByte t = some ct) : ∀ (v : Bytes) (s : LState) (i p : Nat) (M R : List PTok), lexP s i v = .ok (M ++ (t, p) :: R) →
    ∃ w z, v = w ++ ct :: z ∧ p = i + w.length ∧ lexP s i (w ++ [ct]) = .ok (M ++ [(t, p)]) ∧ lexP .start (p + 1) z = .ok R := by
  intro v
  induction v with
  | nil =>
    intro s i p M R h
    unfold lexP at h
    obtain ⟨ts, h1, h2⟩ := map_ok h
    have h3 := congrArg toks h2
    rw [toks_append, toks_cons] at h3
    have h4 : toks (ts.map fun t => (t, i)) = ts := by unfold toks; rw [List.map_map]; exact List.map_id _
    rw [h4] at h3
    exact (lexEnd_br ht h1 h3).elim
  | cons c r ih =>
    intro s i p M R h
    unfold lexP at h
    obtain ⟨⟨s', ts⟩, h1, h2⟩ := bind_ok h
    obtain ⟨T, h3, h4⟩ := map_ok h2
    dsimp only at h3 h4
    have again : ∀ M', T = M' ++ (t, p) :: R → M = ts.map (fun t => (t, i)) ++ M' →
        ∃ w z, c :: r = w ++ ct :: z ∧ p = i + w.length ∧ lexP s i (w ++ [ct]) = .ok (M ++ [(t, p)]) ∧ lexP .start (p + 1) z = .ok R := by
      intro M' hT hM
      rw [hT] at h3
      obtain ⟨w, z, e1, e2, e3, e4⟩ := ih _ _ _ _ _ h3
      refine ⟨c :: w, z, by rw [e1]; rfl, by rw [e2, List.length_cons]; omega, ?_, e4⟩
      rw [List.cons_append]
      unfold lexP
      rw [h1]
      show (lexP s' (i + 1) (w ++ [ct])).map _ = _
      rw [e3, hM, List.append_assoc]; rfl
    rcases List.append_eq_append_iff.1 h4 with ⟨a, ha, hb⟩ | ⟨a, ha, hb⟩
    · exact again a hb ha
    · cases a with
      | nil => exact again [] (by rw [List.nil_append] at hb; rw [hb]; rfl) (by rw [ha]; simp)
      | cons x l =>
        rw [List.cons_append] at hb
        obtain ⟨rfl, hb2⟩ := List.cons.inj hb
        have h5 := congrArg toks ha
        rw [toks_append, toks_cons] at h5
        have h6 : toks (ts.map fun t => (t, i)) = ts := by unfold toks; rw [List.map_map]; exact List.map_id _
        rw [h6] at h5
        obtain ⟨hl, rfl, rfl⟩ := lexStep_br ht h1 h5
        have hl' : l = [] := List.map_eq_nil_iff.1 hl
        subst hl'
        have hmem : (t, p) ∈ ts.map fun t => (t, i) := by rw [ha]; simp
        obtain ⟨t', _, ht'⟩ := List.mem_map.1 hmem
        obtain ⟨rfl, rfl⟩ := Prod.mk.inj ht'
        refine ⟨[], r, rfl, rfl, ?_, by rw [h3, hb2]; rfl⟩
        rw [List.nil_append]
        unfold lexP
        rw [h1]
        show Except.ok (ts.map (fun t => (t, i)) ++ []) = _
        rw [ha, List.append_nil]

/-! ## The shape of what is parsed -/

/-- `e` is read somewhere among the tokens. -/
def Sub (ts : List PTok) (e : PExpr) : Prop := ∃ pre suf nls f rest, ts = pre ++ suf ∧ parseExprP nls f suf = .ok (e, rest)

theorem Sub.mono {ts : List PTok} {e : PExpr} (pre : List PTok) (h : Sub ts e) : Sub (pre ++ ts) e := by
  obtain ⟨p, s, nls, f, rest, rfl, h⟩ := h
  exact ⟨pre ++ p, s, nls, f, rest, (List.append_assoc _ _ _).symm, h⟩

theorem Sub.here {nls : Bool} {f : Nat} {ts rest : List PTok} {e : PExpr} (h : parseExprP nls f ts = .ok (e, rest)) : Sub ts e := ⟨[], ts, nls, f, rest, rfl, h⟩

theorem skipNlP_split (ts : List PTok) : ∃ c, ts = c ++ skipNlP ts := by
  induction ts with
  | nil => exact ⟨[], rfl⟩
  | cons x r ih =>
    obtain ⟨t, p⟩ := x
    cases t with
    | nl => obtain ⟨c, hc⟩ := ih; exact ⟨(.nl, p) :: c, by rw [List.cons_append]; exact congrArg _ hc⟩
    | _ => exact ⟨[], rfl⟩

theorem peekNlP_split (nls : Bool) (ts : List PTok) : ∃ c, ts = c ++ peekNlP nls ts := by
  cases nls with
  | true => exact ⟨[], rfl⟩
  | false => exact skipNlP_split ts

theorem endTermP_ok {nls : Bool} {e e' : PExpr} {ts rest : List PTok} (h : endTermP nls e ts = .ok (e', rest)) : e' = e ∧ rest = ts := by
  unfold endTermP at h
  split at h
  · cases h
  · cases h
  · cases h; exact ⟨rfl, rfl⟩

theorem identTermP_ok {nls : Bool} {n : Bytes} {e' : PExpr} {ts rest : List PTok} (h : identTermP nls n ts = .ok (e', rest)) :
    (∃ c, ts = c ++ rest) ∧ (e' = .call n ∨ e' = .ident n) := by
  unfold identTermP at h
  split at h
  · next p r hp =>
    split at h
    · next q r' hq =>
      obtain ⟨h1, h2⟩ := endTermP_ok h
      obtain ⟨c1, h3⟩ := peekNlP_split nls ts
      obtain ⟨c2, h4⟩ := skipNlP_split r
      refine ⟨⟨c1 ++ (.oparen, p) :: (c2 ++ [(.cparen, q)]), ?_⟩, .inl h1⟩
      rw [h2, h3, hp, h4, hq]; simp
    · cases h
  · obtain ⟨h1, h2⟩ := endTermP_ok h
    exact ⟨⟨[], h2.symm⟩, .inr h1⟩

/-- What a successful call of the parser of the rest of a list or object consumed. -/
def Closes (br : Tok) (ts : List PTok) (hi : Nat) (rest : List PTok) : Prop := ∃ mid p, ts = mid ++ (br, p) :: rest ∧ hi = p + 1

theorem Closes.mono {br : Tok} {ts : List PTok} {hi : Nat} {rest : List PTok} (pre : List PTok) (h : Closes br ts hi rest) : Closes br (pre ++ ts) hi rest := by
  obtain ⟨mid, p, rfl, h⟩ := h
  exact ⟨pre ++ mid, p, (List.append_assoc _ _ _).symm, h⟩

theorem shape_all : ∀ f, (∀ nls ts e rest, parseExprP nls f ts = .ok (e, rest) → (∃ c, ts = c ++ rest)) ∧
    (∀ ts l hi rest, parseTupleP f ts = .ok (l, hi, rest) → Closes .cbrack ts hi rest ∧ ∀ e ∈ l, Sub ts e) ∧
    (∀ ts m hi rest, parseObjectP f ts = .ok (m, hi, rest) → Closes .cbrace ts hi rest ∧ ∀ x ∈ m, Sub ts x.2) ∧
    (∀ k ts m hi rest, objValueP f k ts = .ok (m, hi, rest) → Closes .cbrace ts hi rest ∧ ∀ x ∈ m, Sub ts x.2) ∧
    ∀ k v ts m hi rest, objNextP f k v ts = .ok (m, hi, rest) → Closes .cbrace ts hi rest ∧ ∀ x ∈ m, x = (k, v) ∨ Sub ts x.2 := by
  intro f
  induction f with
  | zero =>
    refine ⟨fun _ _ _ _ h => ?_, fun _ _ _ _ h => ?_, fun _ _ _ _ h => ?_, fun _ _ _ _ _ h => ?_, fun _ _ _ _ _ _ h => ?_⟩
    · rw [parseExprP] at h; cases h
    · rw [parseTupleP] at h; cases h
    · rw [parseObjectP] at h; cases h
    · rw [objValueP] at h; cases h
    · rw [objNextP] at h; cases h
  | succ f ih =>
    obtain ⟨hE, hT, hO, hV, hN⟩ := ih
    refine ⟨fun nls ts e rest h => ?_, fun ts l hi rest h => ?_, fun ts m hi rest h => ?_, fun k ts m hi rest h => ?_, fun k v ts m hi rest h => ?_⟩
    · obtain ⟨c, hc⟩ := peekNlP_split nls ts
      unfold parseExprP at h
      split at h
      · next hp => obtain ⟨_, rfl⟩ := endTermP_ok h; exact ⟨c ++ [_], by rw [hc, hp, List.append_assoc]; rfl⟩
      · next hp => obtain ⟨_, rfl⟩ := endTermP_ok h; exact ⟨c ++ [_], by rw [hc, hp, List.append_assoc]; rfl⟩
      · next hp => obtain ⟨⟨c', rfl⟩, _⟩ := identTermP_ok h; exact ⟨c ++ _ :: c', by rw [hc, hp, List.append_assoc]; rfl⟩
      · next hp =>
        obtain ⟨x, hx, he⟩ := map_ok h
        cases he
        obtain ⟨c', hc'⟩ := hE _ _ _ _ hx
        exact ⟨c ++ _ :: c', by rw [hc, hp, hc', List.append_assoc]; rfl⟩
      · next lo r0 hp =>
        split at h
        · cases h
        · obtain ⟨⟨l, hi, r'⟩, hx, he⟩ := bind_ok h
          obtain ⟨_, hr⟩ := endTermP_ok he
          replace hr : rest = r' := hr
          subst hr
          obtain ⟨⟨mid, p, hc', _⟩, _⟩ := hT _ _ _ _ hx
          exact ⟨c ++ (.obrack, lo) :: (mid ++ [(.cbrack, p)]), by rw [hc, hp, hc']; simp⟩
      · next lo r0 hp =>
        split at h
        · cases h
        · obtain ⟨⟨l, hi, r'⟩, hx, he⟩ := bind_ok h
          obtain ⟨_, hr⟩ := endTermP_ok he
          replace hr : rest = r' := hr
          subst hr
          obtain ⟨⟨mid, p, hc', _⟩, _⟩ := hO _ _ _ _ hx
          exact ⟨c ++ (.obrace, lo) :: (mid ++ [(.cbrace, p)]), by rw [hc, hp, hc']; simp⟩
      · cases h
      · cases h
    · obtain ⟨c, hc⟩ := skipNlP_split ts
      unfold parseTupleP at h
      split at h
      · next p r hp =>
        cases h
        exact ⟨⟨c, p, by rw [hc, hp], rfl⟩, fun e he => by cases he⟩
      · obtain ⟨⟨e, r1⟩, hx, hy⟩ := bind_ok h
        obtain ⟨c1, hc1⟩ := hE _ _ _ _ hx
        obtain ⟨c2, hc2⟩ := skipNlP_split r1
        dsimp only at hy
        have hts : ts = c ++ (c1 ++ (c2 ++ skipNlP r1)) := by rw [← hc2, ← hc1]; exact hc
        have hsub : Sub ts e := by rw [hc]; exact Sub.mono _ (Sub.here hx)
        split at hy
        · next p r hp =>
          cases hy
          refine ⟨⟨c ++ (c1 ++ c2), p, by rw [hts, hp]; simp, rfl⟩, fun e' he => ?_⟩
          rw [List.mem_singleton.1 he]; exact hsub
        · next p r hp =>
          obtain ⟨⟨l', hi', r'⟩, hx', he⟩ := map_ok hy
          cases he
          obtain ⟨h1, h2⟩ := hT _ _ _ _ hx'
          have hts' : ts = (c ++ (c1 ++ (c2 ++ [(.comma, p)]))) ++ r := by rw [hts, hp]; simp
          refine ⟨by rw [hts']; exact h1.mono _, fun e' he => ?_⟩
          rcases List.mem_cons.1 he with rfl | he
          · exact hsub
          · rw [hts']; exact (h2 _ he).mono _
        · cases hy
    · obtain ⟨c, hc⟩ := skipNlP_split ts
      unfold parseObjectP at h
      split at h
      · next p r hp =>
        cases h
        exact ⟨⟨c, p, by rw [hc, hp], rfl⟩, fun e he => by cases he⟩
      · obtain ⟨⟨e, r1⟩, hx, hy⟩ := bind_ok h
        obtain ⟨c1, hc1⟩ := hE _ _ _ _ hx
        dsimp only at hy
        have hts : ts = (c ++ c1) ++ r1 := by rw [List.append_assoc, ← hc1]; exact hc
        obtain ⟨h1, h2⟩ := hV _ _ _ _ _ hy
        exact ⟨by rw [hts]; exact h1.mono _, fun x hx => by rw [hts]; exact (h2 x hx).mono _⟩
    · unfold objValueP at h
      split at h
      · next p r =>
        obtain ⟨⟨e, r1⟩, hx, hy⟩ := bind_ok h
        obtain ⟨c1, hc1⟩ := hE _ _ _ _ hx
        dsimp only at hy
        obtain ⟨h1, h2⟩ := hN _ _ _ _ _ _ hy
        refine ⟨by rw [hc1]; exact h1.mono ((.eq, p) :: c1), fun x hx' => ?_⟩
        rcases h2 x hx' with rfl | h2
        · exact (Sub.here hx).mono [(.eq, p)]
        · rw [hc1]; exact h2.mono ((.eq, p) :: c1)
      · next p r =>
        obtain ⟨⟨e, r1⟩, hx, hy⟩ := bind_ok h
        obtain ⟨c1, hc1⟩ := hE _ _ _ _ hx
        dsimp only at hy
        obtain ⟨h1, h2⟩ := hN _ _ _ _ _ _ hy
        refine ⟨by rw [hc1]; exact h1.mono ((.colon, p) :: c1), fun x hx' => ?_⟩
        rcases h2 x hx' with rfl | h2
        · exact (Sub.here hx).mono [(.colon, p)]
        · rw [hc1]; exact h2.mono ((.colon, p) :: c1)
      · cases h
    · unfold objNextP at h
      split at h
      · next p r =>
        cases h
        exact ⟨⟨[], p, rfl, rfl⟩, fun x hx => .inl (List.mem_singleton.1 hx)⟩
      · next p r =>
        obtain ⟨⟨m', hi', r'⟩, hx', he⟩ := map_ok h
        cases he
        obtain ⟨h1, h2⟩ := hO _ _ _ _ hx'
        refine ⟨h1.mono [(.comma, p)], fun x hx => ?_⟩
        rcases List.mem_cons.1 hx with rfl | hx
        · exact .inl rfl
        · exact .inr ((h2 _ hx).mono [(.comma, p)])
      · next p r =>
        obtain ⟨⟨m', hi', r'⟩, hx', he⟩ := map_ok h
        cases he
        obtain ⟨h1, h2⟩ := hO _ _ _ _ hx'
        refine ⟨h1.mono [(.nl, p)], fun x hx => ?_⟩
        rcases List.mem_cons.1 hx with rfl | hx
        · exact .inl rfl
        · exact .inr ((h2 _ hx).mono [(.nl, p)])
      · cases h

end Verif.HclAgain
