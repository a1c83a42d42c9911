import Verif.Spec.HclText
set_option linter.unusedSimpArgs false
/-! The tokens of the printed text. -/
namespace Verif.Hcl

/-- The text has these tokens, whatever follows. -/
def Lx (t : Bytes) (ts : List Tok) : Prop :=
  ∀ r, lex .start (t ++ r) = (lex .start r).map (ts ++ ·)

/-- What ends a name or number. -/
def IsDelim (c : UInt8) : Prop := c = 10 ∨ c = 44 ∨ c = 32 ∨ c = 40

/-- The text has these tokens if a delimiter follows. -/
def LxD (t : Bytes) (ts : List Tok) : Prop :=
  ∀ c r, IsDelim c → lex .start (t ++ c :: r) = (lex .start (c :: r)).map (ts ++ ·)

theorem Except.map_map' {ε α β γ : Type} (x : Except ε α) (f : α → β) (g : β → γ) :
    (x.map f).map g = x.map fun a => g (f a) := by cases x <;> rfl

theorem Lx.lxd {t : Bytes} {ts : List Tok} (h : Lx t ts) : LxD t ts := fun c r _ => h (c :: r)

theorem Lx.nil : Lx [] [] := fun r => by cases h : lex .start r <;> simp [h, Except.map]

theorem Lx.append {t t' : Bytes} {ts ts' : List Tok} (h : Lx t ts) (h' : Lx t' ts') : Lx (t ++ t') (ts ++ ts') := by
  intro r
  rw [List.append_assoc, h, h', Except.map_map']
  simp only [List.append_assoc]

theorem LxD.append {t t' : Bytes} {ts ts' : List Tok} (h : Lx t ts) (h' : LxD t' ts') : LxD (t ++ t') (ts ++ ts') := by
  intro c r hc
  rw [List.append_assoc, h, h' c r hc, Except.map_map']
  simp only [List.append_assoc]

theorem LxD.then {t t' : Bytes} {ts ts' : List Tok} {c : UInt8} (hc : IsDelim c) (h : LxD t ts) (h' : Lx (c :: t') ts') :
    Lx (t ++ c :: t') (ts ++ ts') := by
  intro r
  rw [List.append_assoc, List.cons_append, h c _ hc, ← List.cons_append, h', Except.map_map']
  simp only [List.append_assoc]

theorem LxD.thenD {t t' : Bytes} {ts ts' : List Tok} {c : UInt8} (hc : IsDelim c) (h : LxD t ts) (h' : LxD (c :: t') ts') :
    LxD (t ++ c :: t') (ts ++ ts') := by
  intro d r hd
  rw [List.append_assoc, List.cons_append, h c _ hc, ← List.cons_append, h' d r hd, Except.map_map']
  simp only [List.append_assoc]

/-- Single bytes. -/
theorem Lx.byte {c : UInt8} {ts : List Tok} (h : lexStart c = .ok (.start, ts)) : Lx [c] ts := by
  intro r
  simp only [List.cons_append, List.nil_append, lex, lexStep, h, Except.bind]

theorem Lx.sp : Lx [32] [] := .byte rfl
theorem Lx.nl : Lx [10] [.nl] := .byte rfl
theorem Lx.eq : Lx [61] [.eq] := .byte rfl
theorem Lx.comma : Lx [44] [.comma] := .byte rfl
theorem Lx.obrack : Lx [91] [.obrack] := .byte rfl
theorem Lx.cbrack : Lx [93] [.cbrack] := .byte rfl
theorem Lx.obrace : Lx [123] [.obrace] := .byte rfl
theorem Lx.cbrace : Lx [125] [.cbrace] := .byte rfl
theorem Lx.oparen : Lx [40] [.oparen] := .byte rfl
theorem Lx.cparen : Lx [41] [.cparen] := .byte rfl
theorem Lx.minus : Lx [45] [.minus] := .byte rfl

theorem Lx.spaces (n : Nat) : Lx (List.replicate n 32) [] := by
  induction n with
  | zero => exact .nil
  | succ n ih => rw [List.replicate_succ]; exact Lx.append (t := [32]) .sp ih

theorem Lx.indent (n : Nat) : Lx (Hcl.indent n) [] := .spaces _

/-! ## Names -/

theorem lex_ident {t : Bytes} (h : ∀ c ∈ t, identCont c = true) (acc r : Bytes) :
    lex (.ident acc) (t ++ r) = lex (.ident (acc ++ t)) r := by
  induction t generalizing acc with
  | nil => simp
  | cons c t ih =>
    have hc := h c (by simp)
    simp only [List.cons_append, lex, lexStep, hc, if_true, Except.bind]
    rw [ih (fun x hx => h x (by simp [hx]))]
    simp only [List.append_assoc, List.cons_append, List.nil_append]
    cases lex (.ident (acc ++ c :: t)) r <;> rfl

theorem lexStart_ident {c : UInt8} (h : identStart c = true) : lexStart c = .ok (.ident [c], []) := by
  have h0 : c ≠ 32 ∧ c ≠ 9 ∧ c ≠ 10 ∧ c ≠ 13 ∧ c ≠ 34 ∧ c ≠ 123 ∧ c ≠ 125 ∧ c ≠ 91 ∧ c ≠ 93 ∧ c ≠ 40 ∧ c ≠ 41 ∧
      c ≠ 44 ∧ c ≠ 61 ∧ c ≠ 58 ∧ c ≠ 45 := by
    refine ⟨?_, ?_, ?_, ?_, ?_, ?_, ?_, ?_, ?_, ?_, ?_, ?_, ?_, ?_, ?_⟩ <;> rintro rfl <;> revert h <;> decide
  obtain ⟨h1, h2, h3, h4, h5, h6, h7, h8, h9, h10, h11, h12, h13, h14, h15⟩ := h0
  simp [lexStart, h1, h2, h3, h4, h5, h6, h7, h8, h9, h10, h11, h12, h13, h14, h15, h]

theorem lex_ident_end {c : UInt8} (hc : IsDelim c) (acc r : Bytes) :
    lex (.ident acc) (c :: r) = (lex .start (c :: r)).map ([.ident acc] ++ ·) := by
  have h1 : identCont c = false := by rcases hc with rfl | rfl | rfl | rfl <;> decide
  have h2 : ¬ (128 ≤ c) := by rcases hc with rfl | rfl | rfl | rfl <;> decide
  simp only [lex, lexStep, h1, h2, Bool.false_eq_true, if_false]
  cases lexStart c with
  | error e => rfl
  | ok x => simp only [Except.map, Except.bind]; cases lex x.1 r <;> rfl

theorem LxD.ident {k : Bytes} (h : IsIdent k) : LxD k [.ident k] := by
  intro c r hc
  match k, h with
  | a :: t, h =>
    simp only [IsIdent] at h
    have e : lex .start ((a :: t) ++ c :: r) = (lex (.ident [a]) (t ++ c :: r)).map ([] ++ ·) := by
      simp only [List.cons_append, lex, lexStep, lexStart_ident h.1, Except.bind]
    rw [e, lex_ident h.2, lex_ident_end hc, Except.map_map']
    rfl

/-! ## Strings -/

theorem lex_str {s : Bytes} (h1 : ∀ c ∈ s, c ≠ 34 ∧ c ≠ 92 ∧ c ≠ 10 ∧ c ≠ 13)
    (h2 : ¬ [36, 123] <:+: s) (h3 : ¬ [37, 123] <:+: s) (acc r : Bytes) (hu : utf8Valid (acc ++ s) = true) :
    lex (.str acc) (s ++ 34 :: r) = (lex .start r).map ([.str (acc ++ s)] ++ ·) ∧
    (s.head? ≠ some 123 → lex (.strD acc) (s ++ 34 :: r) = (lex .start r).map ([.str (acc ++ s)] ++ ·)) := by
  induction s generalizing acc with
  | nil =>
    simp only [List.append_nil] at hu
    constructor
    · simp [lex, lexStep, lexStr, hu, Except.bind]
    · intro _; simp [lex, lexStep, lexStr, hu, Except.bind]
  | cons c s ih =>
    have hc := h1 c (by simp)
    have hu' : utf8Valid (acc ++ [c] ++ s) = true := by simpa using hu
    have ihh := ih (fun x hx => h1 x (by simp [hx])) (fun h => h2 (h.trans (List.infix_cons List.infix_rfl)))
      (fun h => h3 (h.trans (List.infix_cons List.infix_rfl))) (acc ++ [c]) hu'
    have key : (lexStr acc c).bind (fun x => (lex x.1 (s ++ 34 :: r)).map fun ts => x.2 ++ ts) =
        (lex .start r).map ([.str (acc ++ c :: s)] ++ ·) := by
      simp only [lexStr, hc.1, hc.2.1, hc.2.2.1, hc.2.2.2, if_false]
      by_cases hd : c = 36 ∨ c = 37
      · have hne : s.head? ≠ some 123 := by
          intro e
          cases s with
          | nil => simp at e
          | cons d s =>
            simp only [List.head?_cons, Option.some.injEq] at e
            subst e
            rcases hd with rfl | rfl
            · exact h2 ⟨[], s, rfl⟩
            · exact h3 ⟨[], s, rfl⟩
        rw [if_pos hd]
        simp only [Except.bind, ihh.2 hne]
        cases lex .start r <;> simp [Except.map]
      · rw [if_neg hd]
        simp only [Except.bind, ihh.1]
        cases lex .start r <;> simp [Except.map]
    constructor
    · simp only [List.cons_append, lex, lexStep]; exact key
    · intro hh
      simp only [List.head?_cons, ne_eq, Option.some.injEq] at hh
      simp only [List.cons_append, lex, lexStep, hh, if_false]; exact key

theorem Lx.str {s : Bytes} (h : SafeStr s) : Lx (34 :: s ++ [34]) [.str s] := by
  intro r
  obtain ⟨hu, h1, h2, h3⟩ := h
  have := (lex_str h1 h2 h3 [] r (by simpa using hu)).1
  simp only [List.cons_append, List.append_assoc, List.nil_append, lex, lexStep,
    show lexStart 34 = .ok (.str [], []) from rfl, Except.bind]
  rw [this]
  cases lex .start r <;> rfl

/-! ## Numbers -/

/-- The value of decimal digits. -/
def digits (a : Nat) (t : Bytes) : Nat := t.foldl (fun a c => 10 * a + digitVal c) a

theorem digit_ok {n : Nat} (h : n < 10) : isDigit (48 + n.toUInt8) = true ∧ digitVal (48 + n.toUInt8) = n := by
  have : n = 0 ∨ n = 1 ∨ n = 2 ∨ n = 3 ∨ n = 4 ∨ n = 5 ∨ n = 6 ∨ n = 7 ∨ n = 8 ∨ n = 9 := by omega
  rcases this with rfl | rfl | rfl | rfl | rfl | rfl | rfl | rfl | rfl | rfl <;> decide

theorem natTextN_spec (f n : Nat) (h : n < f) :
    (∀ c ∈ natTextN f n, isDigit c = true) ∧ digits 0 (natTextN f n) = n ∧ natTextN f n ≠ [] := by
  induction f generalizing n with
  | zero => omega
  | succ f ih =>
    simp only [natTextN]
    split
    · rename_i h1
      have := digit_ok h1
      refine ⟨by simpa using this.1, ?_, by simp⟩
      simp [digits, this.2]
    · rename_i h1
      obtain ⟨i1, i2, i3⟩ := ih (n / 10) (by omega)
      have := digit_ok (Nat.mod_lt n (by decide : 10 > 0))
      refine ⟨?_, ?_, by simp⟩
      · intro c hc
        rcases List.mem_append.1 hc with hc | hc
        · exact i1 c hc
        · simp only [List.mem_singleton] at hc; rw [hc]; exact this.1
      · simp only [digits] at i2 ⊢
        simp only [List.foldl_append, i2, List.foldl_cons, List.foldl_nil, this.2]
        omega

theorem natText_spec (n : Nat) : (∀ c ∈ natText n, isDigit c = true) ∧ digits 0 (natText n) = n ∧ natText n ≠ [] :=
  natTextN_spec (n + 1) n (by omega)

theorem lexStart_digit {c : UInt8} (h : isDigit c = true) : lexStart c = .ok (.numI (digitVal c), []) := by
  have h0 : c ≠ 32 ∧ c ≠ 9 ∧ c ≠ 10 ∧ c ≠ 13 ∧ c ≠ 34 ∧ c ≠ 123 ∧ c ≠ 125 ∧ c ≠ 91 ∧ c ≠ 93 ∧ c ≠ 40 ∧ c ≠ 41 ∧
      c ≠ 44 ∧ c ≠ 61 ∧ c ≠ 58 ∧ c ≠ 45 := by
    refine ⟨?_, ?_, ?_, ?_, ?_, ?_, ?_, ?_, ?_, ?_, ?_, ?_, ?_, ?_, ?_⟩ <;> rintro rfl <;> revert h <;> decide
  have h1 : identStart c = false := by
    simp only [isDigit, Bool.and_eq_true, decide_eq_true_eq, UInt8.le_iff_toNat_le] at h
    simp only [identStart, isLetter, Bool.or_eq_false_iff, Bool.and_eq_false_iff, decide_eq_false_iff_not,
      UInt8.le_iff_toNat_le]
    have e : ∀ n : Nat, n < 256 → (UInt8.ofNat n).toNat = n := fun n h => by simp [Nat.mod_eq_of_lt h]
    simp only [UInt8.toNat_ofNat] at h ⊢
    refine ⟨⟨by omega, by omega⟩, ?_⟩
    rintro rfl
    simp at h
  obtain ⟨h1', h2, h3, h4, h5, h6, h7, h8, h9, h10, h11, h12, h13, h14, h15⟩ := h0
  simp [lexStart, h1', h2, h3, h4, h5, h6, h7, h8, h9, h10, h11, h12, h13, h14, h15, h, h1]

theorem lex_numI {t : Bytes} (h : ∀ c ∈ t, isDigit c = true) (n : Nat) (r : Bytes) :
    lex (.numI n) (t ++ r) = lex (.numI (digits n t)) r := by
  induction t generalizing n with
  | nil => rfl
  | cons c t ih =>
    have hc := h c (by simp)
    simp only [List.cons_append, lex, lexStep, hc, if_true, Except.bind]
    rw [ih (fun x hx => h x (by simp [hx]))]
    simp only [digits, List.foldl_cons]
    cases lex (.numI (List.foldl (fun a c => 10 * a + digitVal c) (10 * n + digitVal c) t)) r <;> rfl

theorem lex_numF {t : Bytes} (h : ∀ c ∈ t, isDigit c = true) (n m k : Nat) (r : Bytes) :
    lex (.numF n m k) (t ++ r) = lex (.numF n (digits m t) (k + t.length)) r := by
  induction t generalizing m k with
  | nil => rfl
  | cons c t ih =>
    have hc := h c (by simp)
    simp only [List.cons_append, lex, lexStep, hc, if_true, Except.bind]
    rw [ih (fun x hx => h x (by simp [hx]))]
    simp only [digits, List.foldl_cons, List.length_cons]
    rw [show k + 1 + t.length = k + (t.length + 1) by omega]
    cases lex (.numF n (List.foldl (fun a c => 10 * a + digitVal c) (10 * m + digitVal c) t) (k + (t.length + 1))) r <;> rfl

theorem lex_natText (n : Nat) (r : Bytes) : lex .start (natText n ++ r) = lex (.numI n) r := by
  obtain ⟨h1, h2, h3⟩ := natText_spec n
  match h : natText n, h3 with
  | c :: t, _ =>
    rw [h] at h1 h2
    have hc := h1 c (by simp)
    simp only [List.cons_append, lex, lexStep, lexStart_digit hc, Except.bind]
    rw [lex_numI fun x hx => h1 x (by simp [hx])]
    have : digits (digitVal c) t = n := by rw [← h2]; simp [digits]
    rw [this]
    cases lex (.numI n) r <;> rfl

theorem delim_num {c : UInt8} (hc : IsDelim c) :
    isDigit c = false ∧ c ≠ 46 ∧ ¬ (identStart c = true ∨ 128 ≤ c) ∧ ¬ (identStart c = true ∨ 128 ≤ c ∨ c = 46) := by
  rcases hc with rfl | rfl | rfl | rfl <;> decide

theorem LxD.nat (n : Nat) : LxD (natText n) [.num (numVal n 0 0)] := by
  intro c r hc
  rw [lex_natText]
  obtain ⟨h1, h2, h3, _⟩ := delim_num hc
  simp only [lex, lexStep, h1, h2, h3, Bool.false_eq_true, if_false]
  cases lexStart c with
  | error e => rfl
  | ok x => simp only [Except.map, Except.bind]; cases lex x.1 r <;> rfl

theorem natTextN_length (f n k : Nat) (h : n < 10 ^ k) (hk : 0 < k) : (natTextN f n).length ≤ k := by
  induction f generalizing n k with
  | zero => simp [natTextN]
  | succ f ih =>
    simp only [natTextN]
    split
    · simp; omega
    · rename_i h1
      have hk2 : 2 ≤ k := by
        rcases (by omega : k = 1 ∨ 2 ≤ k) with rfl | h'
        · simp at h; omega
        · exact h'
      have : (natTextN f (n / 10)).length ≤ k - 1 := ih (n / 10) (k - 1) (by
        rw [Nat.div_lt_iff_lt_mul (by decide)]
        calc n < 10 ^ k := h
          _ = 10 ^ (k - 1) * 10 := by rw [← Nat.pow_succ]; congr 1; omega) (by omega)
      simp only [List.length_append, List.length_singleton]
      omega

theorem digits_zeros (n : Nat) (t : Bytes) : digits 0 (List.replicate n 48 ++ t) = digits 0 t := by
  induction n with
  | zero => simp
  | succ n ih =>
    rw [List.replicate_succ, List.cons_append]
    simp only [digits, List.foldl_cons] at ih ⊢
    have : digitVal 48 = 0 := by decide
    rw [this]; exact ih

theorem pad6_spec {n : Nat} (h : n < 1000000) :
    (∀ c ∈ pad6 n, isDigit c = true) ∧ digits 0 (pad6 n) = n ∧ (pad6 n).length = 6 := by
  obtain ⟨h1, h2, h3⟩ := natText_spec n
  have hl : (natText n).length ≤ 6 := natTextN_length _ n 6 (by simpa using h) (by decide)
  refine ⟨?_, ?_, ?_⟩
  · intro c hc
    rcases List.mem_append.1 hc with hc | hc
    · rw [(List.mem_replicate.1 hc).2]; decide
    · exact h1 c hc
  · unfold pad6; rw [digits_zeros, h2]
  · unfold pad6; simp; omega

theorem LxD.dec (i n : Nat) (h : n < 1000000) : LxD (natText i ++ 46 :: pad6 n) [.num (numVal i n 6)] := by
  intro c r hc
  obtain ⟨p1, p2, p3⟩ := pad6_spec h
  obtain ⟨h1, h2, h3, h4⟩ := delim_num hc
  rw [List.append_assoc, lex_natText]
  match hp : pad6 n, p3 with
  | d :: t, p3 =>
    rw [hp] at p1 p2
    have hd := p1 d (by simp)
    have hk : 1 + t.length = 6 := by simp at p3; omega
    have hv : digits (digitVal d) t = n := by rw [← p2]; simp [digits]
    have h46 : isDigit 46 = false := by decide
    simp only [List.cons_append, lex, lexStep, h46, Bool.false_eq_true, if_false, if_true, Except.bind, hd]
    rw [lex_numF fun x hx => p1 x (by simp [hx]), hk, hv]
    simp only [lex, lexStep, h1, h4, Bool.false_eq_true, if_false]
    cases lexStart c with
    | error e => rfl
    | ok x => simp only [Except.map, Except.bind]; cases lex x.1 r <;> rfl

/-- The tokens of an integer. -/
def intToks (n : Int) : List Tok := if n < 0 then [.minus, .num (numVal n.natAbs 0 0)] else [.num (numVal n.natAbs 0 0)]

theorem LxD.int (n : Int) : LxD (intText n) (intToks n) := by
  unfold intText intToks
  split
  · exact LxD.append (t := [45]) .minus (.nat _)
  · exact .nat _

/-- The tokens of a number with six decimals. -/
def fltToks (q : Rat) : List Tok :=
  let r := (roundEven (q * 1000000)).natAbs
  if q < 0 then [.minus, .num (numVal (r / 1000000) (r % 1000000) 6)] else [.num (numVal (r / 1000000) (r % 1000000) 6)]

theorem LxD.flt (q : Rat) : LxD (fltText q) (fltToks q) := by
  unfold fltText fltToks
  simp only
  split
  · rw [List.append_assoc]
    exact LxD.append (t := [45]) .minus (.dec _ _ (Nat.mod_lt _ (by decide)))
  · exact .dec _ _ (Nat.mod_lt _ (by decide))

end Verif.Hcl
