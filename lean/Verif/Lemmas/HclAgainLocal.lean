import Verif.Model.HclSyntax
/-!
# The parser reads a list or object up to its closing bracket and no further
-/
namespace Verif.HclAgain
open Hcl

/-- What may follow an expression without being taken as part of it. -/
def Stop (nls : Bool) (rest : List Tok) : Prop :=
  ∀ t r, peekNl nls rest = t :: r → t ≠ .minus ∧ t ≠ .obrack ∧ t ≠ .oparen

theorem endTerm_stop {nls : Bool} {rest : List Tok} (h : Stop nls rest) (e : Expr) : endTerm nls e rest = .ok (e, rest) := by
  unfold endTerm
  cases hp : peekNl nls rest with
  | nil => rfl
  | cons t r =>
    have := h t r hp
    cases t <;> first | rfl | exact absurd rfl this.1 | exact absurd rfl this.2.1

theorem identTerm_stop {nls : Bool} {rest : List Tok} (h : Stop nls rest) (n : Bytes) : identTerm nls n rest = .ok (.ident n, rest) := by
  unfold identTerm
  cases hp : peekNl nls rest with
  | nil => exact endTerm_stop h _
  | cons t r =>
    have := h t r hp
    cases t <;> first | exact endTerm_stop h _ | exact absurd rfl this.2.2

theorem endTerm_ok {nls : Bool} {e e' : Expr} {ts rest : List Tok} (h : endTerm nls e ts = .ok (e', rest)) : e' = e ∧ rest = ts := by
  unfold endTerm at h
  split at h
  · cases h
  · cases h
  · cases h; exact ⟨rfl, rfl⟩

theorem skipNl_split (ts : List Tok) : ∃ k, ts = List.replicate k .nl ++ skipNl ts := by
  induction ts with
  | nil => exact ⟨0, rfl⟩
  | cons t r ih =>
    cases t with
    | nl =>
      obtain ⟨k, hk⟩ := ih
      refine ⟨k + 1, ?_⟩
      rw [List.replicate_succ, List.cons_append, show skipNl (.nl :: r) = skipNl r from rfl, ← hk]
    | _ => exact ⟨0, rfl⟩

theorem skipNl_nls (k : Nat) (r : List Tok) : skipNl (List.replicate k .nl ++ r) = skipNl r := by
  induction k with
  | zero => rfl
  | succ k ih => rw [List.replicate_succ, List.cons_append]; exact ih

theorem peekNl_split (nls : Bool) (ts : List Tok) : ∃ k, ts = List.replicate k .nl ++ peekNl nls ts ∧
    ∀ r, peekNl nls (List.replicate k .nl ++ r) = peekNl nls r := by
  cases nls with
  | true => exact ⟨0, rfl, fun r => rfl⟩
  | false =>
    obtain ⟨k, hk⟩ := skipNl_split ts
    exact ⟨k, hk, fun r => skipNl_nls k r⟩

theorem skipNl_cons {t : Tok} (h : t ≠ .nl) (r : List Tok) : skipNl (t :: r) = t :: r := by
  cases t <;> first | rfl | exact absurd rfl h

theorem peekNl_cons {t : Tok} (h : t ≠ .nl) (nls : Bool) (r : List Tok) : peekNl nls (t :: r) = t :: r := by
  cases nls
  · exact skipNl_cons h r
  · rfl

theorem skipNl_head_ne {ts : List Tok} {t : Tok} {r : List Tok} (h : skipNl ts = t :: r) : t ≠ .nl := by
  induction ts with
  | nil => cases h
  | cons x l ih =>
    cases x with
    | nl => exact ih h
    | _ => cases h; intro h; cases h

theorem stop_of {nls : Bool} {k : Nat} {t : Tok} {r : List Tok} (hk : nls = true → k = 0) (ht : t ≠ .minus ∧ t ≠ .obrack ∧ t ≠ .oparen) (hn : nls = false → t ≠ .nl) :
    Stop nls (List.replicate k .nl ++ t :: r) := by
  intro t' r' h
  cases nls with
  | true =>
    rw [hk rfl] at h
    cases h; exact ht
  | false =>
    rw [show peekNl false (List.replicate k .nl ++ t :: r) = skipNl (List.replicate k .nl ++ t :: r) from rfl, skipNl_nls, skipNl_cons (hn rfl)] at h
    cases h; exact ht

/-- The parser reads the tokens `c` whatever follows them. -/
def LocE (nls : Bool) (e : Expr) (c : List Tok) : Prop :=
  c ≠ [] ∧ ∀ f rest, 3 * c.length ≤ f → Stop nls rest → parseExpr nls f (c ++ rest) = .ok (e, rest)

def LocT (l : List Expr) (c : List Tok) : Prop := (∃ mid, c = mid ++ [.cbrack]) ∧ ∀ f rest, 3 * c.length ≤ f → parseTuple f (c ++ rest) = .ok (l, rest)
def LocO (m : List (Expr × Expr)) (c : List Tok) : Prop :=
  (∃ mid, c = mid ++ [.cbrace]) ∧ ∀ f rest, 3 * c.length ≤ f → parseObject f (c ++ rest) = .ok (m, rest)
def LocV (k : Expr) (m : List (Expr × Expr)) (c : List Tok) : Prop :=
  (∃ t r, c = t :: r ∧ (t = .eq ∨ t = .colon)) ∧ (∃ mid, c = mid ++ [.cbrace]) ∧ ∀ f rest, 3 * c.length ≤ f → objValue f k (c ++ rest) = .ok (m, rest)
def LocN (k v : Expr) (m : List (Expr × Expr)) (c : List Tok) : Prop :=
  (∃ t r, c = t :: r ∧ (t = .cbrace ∨ t = .comma ∨ t = .nl)) ∧ (∃ mid, c = mid ++ [.cbrace]) ∧
    ∀ f rest, 3 * c.length ≤ f → objNext f k v (c ++ rest) = .ok (m, rest)

theorem startsFor_app {c rest : List Tok} (h : ∃ t ∈ c, t ≠ Tok.nl) : startsFor (c ++ rest) = startsFor c := by
  unfold startsFor
  obtain ⟨k, hk⟩ := skipNl_split c
  cases hs : skipNl c with
  | nil =>
    exfalso
    rw [hs, List.append_nil] at hk
    obtain ⟨t, ht, hn⟩ := h
    rw [hk] at ht
    exact hn (List.eq_of_mem_replicate ht)
  | cons t r =>
    have ht := skipNl_head_ne hs
    rw [hs] at hk
    rw [hk, List.append_assoc, skipNl_nls, List.cons_append, skipNl_cons ht]
    cases t <;> rfl

theorem closed_of {c : List Tok} {t : Tok} (h : ∃ mid, c = mid ++ [t]) (ht : t ≠ .nl) : ∃ t ∈ c, t ≠ Tok.nl := by
  obtain ⟨mid, rfl⟩ := h
  exact ⟨t, List.mem_append_right _ (List.mem_singleton.2 rfl), ht⟩

theorem bind_ok {α β : Type} {x : Except Bad α} {f : α → Except Bad β} {y : β} (h : x.bind f = .ok y) : ∃ a, x = .ok a ∧ f a = .ok y := by
  cases x with
  | ok a => exact ⟨a, rfl, h⟩
  | error e => cases h

theorem map_ok {α β : Type} {x : Except Bad α} {f : α → β} {y : β} (h : x.map f = .ok y) : ∃ a, x = .ok a ∧ f a = y := by
  cases x with
  | ok a => cases h; exact ⟨a, rfl, rfl⟩
  | error e => cases h

/-- An expression that begins with the token, behind newlines that do not count. -/
theorem LocE.of {nls : Bool} {ts u : List Tok} {t : Tok} {rest : List Tok} {e : Expr} {c : List Tok} (hp : peekNl nls ts = t :: u) (hu : u = c ++ rest)
    (h : ∀ f rest, 3 * c.length + 2 ≤ f → Stop nls rest → parseExpr nls (f + 1) (t :: (c ++ rest)) = .ok (e, rest)) :
    ∃ c, ts = c ++ rest ∧ LocE nls e c := by
  obtain ⟨k, hk, hs⟩ := peekNl_split nls ts
  rw [hp, hu] at hk
  refine ⟨List.replicate k .nl ++ t :: c, by rw [hk, List.append_assoc, List.cons_append], by simp, fun f rest hf hst => ?_⟩
  rw [List.append_assoc, List.cons_append]
  have hl : (List.replicate k Tok.nl ++ t :: c).length = k + (c.length + 1) := by rw [List.length_append, List.length_replicate, List.length_cons]
  rw [hl] at hf
  match f, hf with
  | f + 1, hf =>
    have := h f rest (by omega) hst
    unfold parseExpr at this ⊢
    rw [hs]
    exact this

/-- After an element of a list. -/
def tupleNext (f : Nat) (e : Expr) (ts : List Tok) : Except Bad (List Expr × List Tok) :=
  match skipNl ts with
  | .cbrack :: r => .ok ([e], r)
  | .comma :: r => (parseTuple f r).map fun y => (e :: y.1, y.2)
  | _ => .error .invalid

theorem tupleNext_end (f : Nat) (e : Expr) (k : Nat) (r : List Tok) : tupleNext f e (List.replicate k .nl ++ .cbrack :: r) = .ok ([e], r) := by
  unfold tupleNext; rw [skipNl_nls]; rfl

theorem tupleNext_comma (f : Nat) (e : Expr) (k : Nat) (r : List Tok) :
    tupleNext f e (List.replicate k .nl ++ .comma :: r) = (parseTuple f r).map fun y => (e :: y.1, y.2) := by
  unfold tupleNext; rw [skipNl_nls]; rfl

theorem parseTuple_step {k : Nat} {t : Tok} (h1 : t ≠ .nl) (h2 : t ≠ .cbrack) (f : Nat) (r : List Tok) :
    parseTuple (f + 1) (List.replicate k .nl ++ t :: r) = (parseExpr false f (t :: r)).bind fun x => tupleNext f x.1 x.2 := by
  conv => lhs; unfold parseTuple
  rw [skipNl_nls, skipNl_cons h1]
  cases t <;> first | rfl | exact absurd rfl h2

theorem parseObject_step {k : Nat} {t : Tok} (h1 : t ≠ .nl) (h2 : t ≠ .cbrace) (f : Nat) (r : List Tok) :
    parseObject (f + 1) (List.replicate k .nl ++ t :: r) = (parseExpr true f (t :: r)).bind fun x => objValue f x.1 x.2 := by
  conv => lhs; unfold parseObject
  rw [skipNl_nls, skipNl_cons h1]
  cases t <;> first | rfl | exact absurd rfl h2

theorem local_all : ∀ f, (∀ nls ts e rest, parseExpr nls f ts = .ok (e, rest) → ∃ c, ts = c ++ rest ∧ LocE nls e c) ∧
    (∀ ts l rest, parseTuple f ts = .ok (l, rest) → ∃ c, ts = c ++ rest ∧ LocT l c) ∧
    (∀ ts m rest, parseObject f ts = .ok (m, rest) → ∃ c, ts = c ++ rest ∧ LocO m c) ∧
    (∀ k ts m rest, objValue f k ts = .ok (m, rest) → ∃ c, ts = c ++ rest ∧ LocV k m c) ∧
    ∀ k v ts m rest, objNext f k v ts = .ok (m, rest) → ∃ c, ts = c ++ rest ∧ LocN k v m c := by
  intro f
  induction f with
  | zero =>
    refine ⟨fun _ _ _ _ h => ?_, fun _ _ _ h => ?_, fun _ _ _ h => ?_, fun _ _ _ _ h => ?_, fun _ _ _ _ _ h => ?_⟩
    · rw [parseExpr] at h; cases h
    · rw [parseTuple] at h; cases h
    · rw [parseObject] at h; cases h
    · rw [objValue] at h; cases h
    · rw [objNext] at h; cases h
  | succ f ih =>
    obtain ⟨hE, hT, hO, hV, hN⟩ := ih
    refine ⟨fun nls ts e rest h => ?_, fun ts l rest h => ?_, fun ts m rest h => ?_, fun k ts m rest h => ?_, fun k v ts m rest h => ?_⟩
    · unfold parseExpr at h
      cases hp : peekNl nls ts with
      | nil => rw [hp] at h; cases h
      | cons t r =>
        rw [hp] at h
        cases t with
        | str s =>
          obtain ⟨rfl, rfl⟩ := endTerm_ok h
          refine LocE.of (c := []) hp rfl fun f rest _ hst => ?_
          unfold parseExpr; rw [peekNl_cons (by intro h; cases h)]; exact endTerm_stop hst _
        | num s =>
          obtain ⟨rfl, rfl⟩ := endTerm_ok h
          refine LocE.of (c := []) hp rfl fun f rest _ hst => ?_
          unfold parseExpr; rw [peekNl_cons (by intro h; cases h)]; exact endTerm_stop hst _
        | ident n =>
          dsimp only at h
          unfold identTerm at h
          split at h
          · next r1 hp1 =>
            split at h
            · next r2 hp2 =>
              obtain ⟨rfl, rfl⟩ := endTerm_ok h
              obtain ⟨k1, hk1, hs1⟩ := peekNl_split nls r
              obtain ⟨k2, hk2⟩ := skipNl_split r1
              rw [hp1] at hk1
              rw [hp2] at hk2
              refine LocE.of (c := List.replicate k1 .nl ++ .oparen :: (List.replicate k2 .nl ++ [.cparen])) hp ?_ fun f rest _ hst => ?_
              · rw [hk1, hk2]; simp
              · unfold parseExpr; rw [peekNl_cons (by intro h; cases h)]
                dsimp only
                unfold identTerm
                rw [List.append_assoc, hs1, List.cons_append, peekNl_cons (by intro h; cases h)]
                dsimp only
                rw [List.append_assoc, skipNl_nls]
                exact endTerm_stop hst _
            · cases h
          · obtain ⟨rfl, rfl⟩ := endTerm_ok h
            refine LocE.of (c := []) hp rfl fun f rest _ hst => ?_
            unfold parseExpr; rw [peekNl_cons (by intro h; cases h)]; exact identTerm_stop hst _
        | minus =>
          obtain ⟨x, hx, hy⟩ := map_ok h
          cases hy
          obtain ⟨c, hc, hl⟩ := hE _ _ _ _ hx
          refine LocE.of (c := c) hp hc fun f rest hf hst => ?_
          unfold parseExpr; rw [peekNl_cons (by intro h; cases h)]
          dsimp only
          rw [hl.2 f rest (by omega) hst]; rfl
        | obrack =>
          dsimp only at h
          split at h
          · cases h
          · next hfor =>
            obtain ⟨x, hx, hy⟩ := bind_ok h
            obtain ⟨rfl, rfl⟩ := endTerm_ok hy
            obtain ⟨c, hc, hl⟩ := hT _ _ _ hx
            have hcl := closed_of hl.1 (by intro h; cases h)
            refine LocE.of (c := c) hp hc fun f rest hf hst => ?_
            unfold parseExpr; rw [peekNl_cons (by intro h; cases h)]
            dsimp only
            rw [hc, startsFor_app hcl] at hfor
            rw [startsFor_app hcl, if_neg hfor, hl.2 f rest (by omega)]
            exact endTerm_stop hst _
        | obrace =>
          dsimp only at h
          split at h
          · cases h
          · next hfor =>
            obtain ⟨x, hx, hy⟩ := bind_ok h
            obtain ⟨rfl, rfl⟩ := endTerm_ok hy
            obtain ⟨c, hc, hl⟩ := hO _ _ _ hx
            have hcl := closed_of hl.1 (by intro h; cases h)
            refine LocE.of (c := c) hp hc fun f rest hf hst => ?_
            unfold parseExpr; rw [peekNl_cons (by intro h; cases h)]
            dsimp only
            rw [hc, startsFor_app hcl] at hfor
            rw [startsFor_app hcl, if_neg hfor, hl.2 f rest (by omega)]
            exact endTerm_stop hst _
        | _ => cases h
    · obtain ⟨k, hk⟩ := skipNl_split ts
      cases hs : skipNl ts with
      | nil => unfold parseTuple at h; rw [hs] at h; dsimp only at h; obtain ⟨x, hx, _⟩ := bind_ok h; obtain ⟨c, hc, hl⟩ := hE _ _ _ _ hx
               exact absurd (List.append_eq_nil_iff.1 hc.symm).1 hl.1
      | cons t r =>
        by_cases ht : t = .cbrack
        · subst ht
          unfold parseTuple at h; rw [hs] at h; cases h
          refine ⟨List.replicate k .nl ++ [.cbrack], by rw [hk, hs]; simp, ⟨_, rfl⟩, fun f rest hf => ?_⟩
          match f, hf with
          | 0, hf => simp at hf
          | f + 1, _ =>
            unfold parseTuple
            rw [List.append_assoc, skipNl_nls]; rfl
        · have hn := skipNl_head_ne hs
          rw [hk, hs, parseTuple_step hn ht] at h
          obtain ⟨⟨e, r1⟩, hx, hy⟩ := bind_ok h
          obtain ⟨c1, hc1, hl1⟩ := hE _ _ _ _ hx
          obtain ⟨k1, hk1⟩ := skipNl_split r1
          obtain ⟨t', c1', rfl⟩ : ∃ t' c', c1 = t' :: c' := by
            cases c1 with
            | nil => exact absurd rfl hl1.1
            | cons a b => exact ⟨a, b, rfl⟩
          rw [List.cons_append] at hc1
          obtain ⟨rfl, hc1⟩ := List.cons.inj hc1
          dsimp only at hy
          unfold tupleNext at hy
          split at hy
          · next r2 hs2 =>
            cases hy
            rw [hs2] at hk1
            refine ⟨List.replicate k .nl ++ (t :: c1' ++ (List.replicate k1 .nl ++ [.cbrack])), by rw [hk, hs, hc1, hk1]; simp, ⟨List.replicate k .nl ++ (t :: c1' ++ List.replicate k1 .nl), by simp⟩, fun f rest hf => ?_⟩
            simp only [List.length_append, List.length_replicate, List.length_cons, List.length_nil] at hf
            match f, hf with
            | f + 1, hf =>
              rw [List.append_assoc, List.append_assoc, List.cons_append, parseTuple_step hn ht, ← List.cons_append, List.append_assoc, List.singleton_append]
              rw [hl1.2 f _ (by simp only [List.length_cons]; omega) (stop_of (by intro h; cases h) (by simp) (by simp))]
              exact tupleNext_end _ _ _ _
          · next r2 hs2 =>
            obtain ⟨y, hy2, he⟩ := map_ok hy
            cases he
            obtain ⟨c2, hc2, hl2⟩ := hT _ _ _ hy2
            rw [hs2] at hk1
            obtain ⟨⟨mid, hmid⟩, hl2⟩ := hl2
            refine ⟨List.replicate k .nl ++ (t :: c1' ++ (List.replicate k1 .nl ++ .comma :: c2)), by rw [hk, hs, hc1, hk1, hc2]; simp,
              ⟨List.replicate k .nl ++ (t :: c1' ++ (List.replicate k1 .nl ++ .comma :: mid)), by rw [hmid]; simp⟩, fun f rest hf => ?_⟩
            simp only [List.length_append, List.length_replicate, List.length_cons] at hf
            match f, hf with
            | f + 1, hf =>
              rw [List.append_assoc, List.append_assoc, List.cons_append, parseTuple_step hn ht, ← List.cons_append, List.append_assoc, List.cons_append (as := c2)]
              rw [hl1.2 f _ (by simp only [List.length_cons]; omega) (stop_of (by intro h; cases h) (by simp) (by simp))]
              show tupleNext f e _ = _
              rw [tupleNext_comma, hl2 f rest (by omega)]; rfl
          · cases hy
    · obtain ⟨k, hk⟩ := skipNl_split ts
      cases hs : skipNl ts with
      | nil => unfold parseObject at h; rw [hs] at h; dsimp only at h; obtain ⟨x, hx, _⟩ := bind_ok h; obtain ⟨c, hc, hl⟩ := hE _ _ _ _ hx
               exact absurd (List.append_eq_nil_iff.1 hc.symm).1 hl.1
      | cons t r =>
        by_cases ht : t = .cbrace
        · subst ht
          unfold parseObject at h; rw [hs] at h; cases h
          refine ⟨List.replicate k .nl ++ [.cbrace], by rw [hk, hs]; simp, ⟨_, rfl⟩, fun f rest hf => ?_⟩
          match f, hf with
          | 0, hf => simp at hf
          | f + 1, _ =>
            unfold parseObject
            rw [List.append_assoc, skipNl_nls]; rfl
        · have hn := skipNl_head_ne hs
          rw [hk, hs, parseObject_step hn ht] at h
          obtain ⟨⟨e, r1⟩, hx, hy⟩ := bind_ok h
          obtain ⟨c1, hc1, hl1⟩ := hE _ _ _ _ hx
          obtain ⟨t', c1', rfl⟩ : ∃ t' c', c1 = t' :: c' := by
            cases c1 with
            | nil => exact absurd rfl hl1.1
            | cons a b => exact ⟨a, b, rfl⟩
          rw [List.cons_append] at hc1
          obtain ⟨rfl, hc1⟩ := List.cons.inj hc1
          dsimp only at hy
          obtain ⟨c2, hc2, ⟨t2, r2, hh, ht2⟩, ⟨mid, hmid⟩, hl2⟩ := hV _ _ _ _ hy
          refine ⟨List.replicate k .nl ++ (t :: c1' ++ c2), by rw [hk, hs, hc1, hc2]; simp, ⟨List.replicate k .nl ++ (t :: c1' ++ mid), by rw [hmid]; simp⟩, fun f rest hf => ?_⟩
          have hc2l : c2.length = r2.length + 1 := by rw [hh]; rfl
          simp only [List.length_append, List.length_replicate, List.length_cons] at hf
          match f, hf with
          | 0, hf => omega
          | f + 1, hf =>
            rw [List.append_assoc, List.append_assoc, List.cons_append, parseObject_step hn ht, ← List.cons_append]
            rw [hl1.2 f _ (by simp only [List.length_cons]; omega) (by
              rw [hh]
              exact stop_of (k := 0) (fun _ => rfl) (by rcases ht2 with rfl | rfl <;> simp) (by simp))]
            exact hl2 f rest (by omega)
    · cases ts with
      | nil => unfold objValue at h; cases h
      | cons t r =>
        have hcase : (t = .eq ∨ t = .colon) ∧ ((parseExpr true f r).bind fun v => objNext f k v.1 v.2) = .ok (m, rest) := by
          unfold objValue at h
          cases t <;> first | exact ⟨.inl rfl, h⟩ | exact ⟨.inr rfl, h⟩ | cases h
        obtain ⟨ht, h⟩ := hcase
        obtain ⟨⟨e, r1⟩, hx, hy⟩ := bind_ok h
        obtain ⟨c1, hc1, hl1⟩ := hE _ _ _ _ hx
        dsimp only at hy
        obtain ⟨c2, hc2, ⟨t2, r2, hh, ht2⟩, ⟨mid, hmid⟩, hl2⟩ := hN _ _ _ _ _ hy
        have hc2l : c2.length = r2.length + 1 := by rw [hh]; rfl
        refine ⟨t :: (c1 ++ c2), by rw [hc1, hc2]; simp, ⟨t, _, rfl, ht⟩, ⟨t :: (c1 ++ mid), by rw [hmid]; simp⟩, fun f rest hf => ?_⟩
        simp only [List.length_append, List.length_cons] at hf
        match f, hf with
        | f + 1, hf =>
          have he : objValue (f + 1) k (t :: (c1 ++ c2) ++ rest) = (parseExpr true f (c1 ++ (c2 ++ rest))).bind fun v => objNext f k v.1 v.2 := by
            rw [List.cons_append, List.append_assoc]
            conv => lhs; unfold objValue
            rcases ht with rfl | rfl <;> rfl
          rw [he, hl1.2 f _ (by omega) (by
              rw [hh]
              exact stop_of (k := 0) (fun _ => rfl) (by rcases ht2 with rfl | rfl | rfl <;> simp) (by simp))]
          exact hl2 f rest (by omega)
    · cases ts with
      | nil => unfold objNext at h; cases h
      | cons t r =>
        by_cases htb : t = .cbrace
        · subst htb
          unfold objNext at h; cases h
          refine ⟨[.cbrace], rfl, ⟨_, _, rfl, .inl rfl⟩, ⟨[], rfl⟩, fun f rest hf => ?_⟩
          match f, hf with
          | f + 1, _ => unfold objNext; rfl
        · have hcase : (t = .cbrace ∨ t = .comma ∨ t = .nl) ∧ ((parseObject f r).map fun y => ((k, v) :: y.1, y.2)) = .ok (m, rest) := by
            unfold objNext at h
            cases t <;> first | exact absurd rfl htb | exact ⟨.inr (.inl rfl), h⟩ | exact ⟨.inr (.inr rfl), h⟩ | cases h
          obtain ⟨ht, h⟩ := hcase
          obtain ⟨y, hy, he⟩ := map_ok h
          cases he
          obtain ⟨c2, hc2, ⟨mid, hmid⟩, hl2⟩ := hO _ _ _ hy
          refine ⟨t :: c2, by rw [hc2]; rfl, ⟨t, _, rfl, ht⟩, ⟨t :: mid, by rw [hmid]; rfl⟩, fun f rest hf => ?_⟩
          simp only [List.length_cons] at hf
          match f, hf with
          | f + 1, hf =>
            have he : objNext (f + 1) k v (t :: c2 ++ rest) = (parseObject f (c2 ++ rest)).map fun y => ((k, v) :: y.1, y.2) := by
              rw [List.cons_append]
              conv => lhs; unfold objNext
              rcases ht with rfl | rfl | rfl
              · exact absurd rfl htb
              · rfl
              · rfl
            rw [he, hl2 f rest (by omega)]; rfl

end Verif.HclAgain
