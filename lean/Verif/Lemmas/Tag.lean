import Verif.Spec.Tag
/-!
# Lemmas about the tags of struct fields
-/
namespace Verif.HclS

theorem isSpace_iff {c : UInt8} : isSpace c = true ↔ Blank c := by
  simp only [isSpace, Blank, Bool.or_eq_true, Bool.and_eq_true, decide_eq_true_eq, UInt8.le_iff_toNat_le, ← UInt8.toNat_inj]
  simp
  omega

theorem isSpace_false {c : UInt8} : isSpace c = false ↔ ¬Blank c := by
  rw [← isSpace_iff]; simp

theorem fieldsLoop_blanks {s : Bytes} (h : ∀ c ∈ s, Blank c) (r : Bytes) : fieldsLoop [] (s ++ r) = fieldsLoop [] r := by
  induction s with
  | nil => rfl
  | cons c s ih =>
    rw [List.cons_append, fieldsLoop, isSpace_iff.2 (h c (by simp))]
    simpa using ih fun c hc => h c (by simp [hc])

theorem fieldsLoop_blank {c : UInt8} (h : Blank c) {cur : Bytes} (hc : cur ≠ []) (r : Bytes) :
    fieldsLoop cur (c :: r) = cur :: fieldsLoop [] (c :: r) := by
  simp [fieldsLoop, isSpace_iff.2 h, hc]

theorem fieldsLoop_in {w : Bytes} (h : ∀ c ∈ w, ¬Blank c) (r : Bytes) : ∀ cur, fieldsLoop cur (w ++ r) = fieldsLoop (cur ++ w) r := by
  induction w with
  | nil => intro cur; simp
  | cons c w ih =>
    intro cur
    rw [List.cons_append, fieldsLoop, isSpace_false.2 (h c (by simp))]
    simp only [Bool.false_eq_true, if_false]
    rw [ih fun c hc => h c (by simp [hc])]
    simp

theorem words_fieldsLoop {t : Bytes} {ws : List Bytes} (h : Words t ws) : fieldsLoop [] t = ws := by
  induction h with
  | @none t h =>
    have := fieldsLoop_blanks h []
    rw [List.append_nil] at this
    rw [this]; rfl
  | @word s w r ws hs hw hn hr _ ih =>
    rw [List.append_assoc, fieldsLoop_blanks hs, fieldsLoop_in hn, List.nil_append]
    rcases hr with rfl | ⟨c, r', rfl, hc⟩
    · rw [← ih]; simp [fieldsLoop, hw]
    · rw [fieldsLoop_blank hc hw, ih]

theorem Words.cons_blank {c : UInt8} (hc : Blank c) {r : Bytes} {ws : List Bytes} (h : Words r ws) : Words (c :: r) ws := by
  cases h with
  | none h => exact .none (by simpa using ⟨hc, h⟩)
  | @word s w r ws hs hw hn hr h =>
    have := @Words.word (c :: s) w r ws (by simpa using ⟨hc, hs⟩) hw hn hr h
    simpa using this

theorem words_loop : ∀ (t cur : Bytes), (∀ c ∈ cur, ¬Blank c) → Words (cur ++ t) (fieldsLoop cur t)
  | [], cur, h => by
    rw [fieldsLoop, List.append_nil]
    split
    · next e => subst e; exact .none (by simp)
    · next e =>
      have := @Words.word [] cur [] [] (by simp) e h (.inl rfl) (.none (by simp))
      simpa using this
  | c :: r, cur, h => by
    by_cases hc : Blank c
    · by_cases hn : cur = []
      · subst hn
        have e : fieldsLoop [] (c :: r) = fieldsLoop [] r := fieldsLoop_blanks (s := [c]) (by simpa using hc) r
        rw [e, List.nil_append]
        exact (words_loop r [] (by simp)).cons_blank hc
      · rw [fieldsLoop_blank hc hn]
        have e : fieldsLoop [] (c :: r) = fieldsLoop [] r := fieldsLoop_blanks (s := [c]) (by simpa using hc) r
        have hw : Words (c :: r) (fieldsLoop [] (c :: r)) := by
          rw [e]; exact (words_loop r [] (by simp)).cons_blank hc
        have := @Words.word [] cur (c :: r) _ (by simp) hn h (.inr ⟨c, r, rfl, hc⟩) hw
        simpa using this
    · rw [fieldsLoop, isSpace_false.2 hc]
      have := words_loop r (cur ++ [c]) (by
        intro d hd
        rcases List.mem_append.1 hd with hd | hd
        · exact h d hd
        · rw [List.mem_singleton.1 hd]; exact hc)
      simpa using this

/-- The words of a text are what `strings.Fields` gives. -/
theorem words_iff {t : Bytes} {ws : List Bytes} : Words t ws ↔ fieldsLoop [] t = ws :=
  ⟨words_fieldsLoop, fun h => h ▸ words_loop t [] (by simp)⟩

theorem lower_eq {c d : UInt8} (hd : 97 ≤ d ∧ d ≤ 122) :
    (if 65 ≤ c && c ≤ 90 then c + 32 else c) = d ↔ c = d ∨ c = d - 32 := by
  simp only [UInt8.le_iff_toNat_le, Bool.and_eq_true, decide_eq_true_eq] at hd ⊢
  split
  · next h =>
    simp only [← UInt8.toNat_inj, UInt8.toNat_add, UInt8.toNat_sub]
    simp at h hd ⊢
    omega
  · next h =>
    simp only [← UInt8.toNat_inj, UInt8.toNat_sub]
    simp at h hd ⊢
    omega

theorem lower_eq' {c d : UInt8} (hd : d < 65) :
    (if 65 ≤ c && c ≤ 90 then c + 32 else c) = d ↔ c = d := by
  simp only [UInt8.le_iff_toNat_le, UInt8.lt_iff_toNat_lt, Bool.and_eq_true, decide_eq_true_eq] at hd ⊢
  split
  · next h =>
    simp only [← UInt8.toNat_inj, UInt8.toNat_add]
    simp at h hd ⊢
    omega
  · next h => simp

theorem hclWord_iff {w : Bytes} : (5 ≤ w.length ∧ lower (w.take 5) = b "hcl:\"") ↔ ∃ rest, HclWord w rest := by
  have hb : b "hcl:\"" = [104, 99, 108, 58, 34] := by decide +kernel
  rw [hb]
  constructor
  · rintro ⟨hl, h⟩
    match w, hl with
    | x :: y :: z :: u :: v :: rest, _ =>
      simp only [List.take_succ_cons, List.take_zero, lower, List.map_cons, List.map_nil, List.cons.injEq, and_true] at h
      obtain ⟨h1, h2, h3, h4, h5⟩ := h
      rw [lower_eq (by decide)] at h1 h2 h3
      rw [lower_eq' (by decide)] at h4 h5
      subst h4 h5
      exact ⟨rest, x, y, z, rfl, h1, h2, h3⟩
  · rintro ⟨rest, x, y, z, rfl, hx, hy, hz⟩
    refine ⟨by simp, ?_⟩
    rcases hx with rfl | rfl <;> rcases hy with rfl | rfl <;> rcases hz with rfl | rfl <;>
      simp only [List.take_succ_cons, List.take_zero, lower, List.map_cons, List.map_nil] <;> decide

theorem HclWord.drop {w rest : Bytes} (h : HclWord w rest) : w.drop 5 = rest ∧ w.length = rest.length + 5 := by
  obtain ⟨x, y, z, rfl, _⟩ := h
  simp

theorem splitTag_iff {t n k : Bytes} : splitTag t = (n, k) ↔ Halves t n k := by
  unfold splitTag Halves
  rw [Prod.mk.injEq]
  constructor
  · rintro ⟨rfl, rfl⟩
    refine ⟨fun c hc => ?_, ?_⟩
    · have := List.all_eq_true.1 (List.all_takeWhile (p := fun x : UInt8 => decide (x ≠ 44)) (l := t)) c hc
      simpa using this
    · rcases h : t.dropWhile (· ≠ 44) with _ | ⟨c, r⟩
      · have e := List.takeWhile_append_dropWhile (p := (· ≠ 44)) (l := t)
        rw [h, List.append_nil] at e
        exact .inl ⟨e.symm, by rw [h]; rfl⟩
      · have hc := List.head_dropWhile_not (fun x : UInt8 => decide (x ≠ 44)) (l := t) (by rw [h]; simp)
        simp only [h, List.head_cons] at hc
        have hc : c = 44 := by simpa using hc
        have e := List.takeWhile_append_dropWhile (p := (· ≠ 44)) (l := t)
        rw [h, hc] at e
        exact .inr (by rw [h]; exact e.symm)
  · rintro ⟨hn, ⟨rfl, rfl⟩ | rfl⟩
    · have hp : ∀ x ∈ t, (decide (x ≠ 44)) = true := by simpa using hn
      refine ⟨?_, ?_⟩
      · rw [← List.append_nil t, List.takeWhile_append_of_pos (by simpa using hp)]; simp
      · rw [← List.append_nil t, List.dropWhile_append_of_pos (by simpa using hp)]; simp
    · have hp : ∀ x ∈ n, (decide (x ≠ 44)) = true := by simpa using hn
      rw [List.takeWhile_append_of_pos (by simpa using hp), List.dropWhile_append_of_pos (by simpa using hp)]
      simp

/-- The words before the first one of interest. -/
def NoHcl (ws : List Bytes) : Prop := ∀ w ∈ ws, ∀ rest, ¬HclWord w rest

theorem tagLoopP_none : ∀ {ws : List Bytes}, NoHcl ws → ∀ post, tagLoopP (ws ++ post) = tagLoopP post
  | [], _, post => rfl
  | w :: ws, h, post => by
    rw [List.cons_append, tagLoopP, if_neg (fun hh => (hclWord_iff.1 hh).elim fun rest hr => h w (by simp) rest hr)]
    exact tagLoopP_none (fun v hv => h v (by simp [hv])) post

theorem tagLoopP_hcl {w rest : Bytes} (h : HclWord w rest) (post : List Bytes) :
    tagLoopP (w :: post) = if rest = [] then .error .panic else .ok (splitTag rest.dropLast) := by
  rw [tagLoopP, if_pos (hclWord_iff.2 ⟨rest, h⟩), h.drop.1, h.drop.2]
  cases rest <;> simp

theorem firstHcl : ∀ ws : List Bytes, NoHcl ws ∨ ∃ pre w post rest, ws = pre ++ w :: post ∧ NoHcl pre ∧ HclWord w rest
  | [] => .inl (by simp [NoHcl])
  | w :: ws => by
    by_cases hw : ∃ rest, HclWord w rest
    · obtain ⟨rest, hr⟩ := hw
      exact .inr ⟨[], w, ws, rest, rfl, by simp [NoHcl], hr⟩
    · rcases firstHcl ws with h | ⟨pre, v, post, rest, rfl, hp, hv⟩
      · refine .inl fun x hx rest hr => ?_
        rcases List.mem_cons.1 hx with rfl | hx
        · exact hw ⟨rest, hr⟩
        · exact h x hx rest hr
      · refine .inr ⟨w :: pre, v, post, rest, rfl, fun x hx r hr => ?_, hv⟩
        rcases List.mem_cons.1 hx with rfl | hx
        · exact hw ⟨r, hr⟩
        · exact hp x hx r hr

/-- `tag2P` is `tag2` where it does not panic. -/
theorem tag2P_tag2 {t : Bytes} {x : Bytes × Bytes} (h : tag2P t = .ok x) : tag2 t = x := by
  unfold tag2P at h; unfold tag2
  generalize fieldsLoop [] t = ws at h
  induction ws with
  | nil => cases h; rfl
  | cons w ws ih =>
    rw [tagLoopP] at h
    rw [tagLoop]
    split at h
    · next hc =>
      rw [if_pos hc]
      split at h
      · cases h
      · cases h; rfl
    · next hc => rw [if_neg hc]; exact ih h

/-! ## Conventional tags -/

theorem scanQuoted_plain {v : Bytes} (h : ∀ c ∈ v, c ≠ 34 ∧ c ≠ 92) (r : Bytes) : scanQuoted (v ++ 34 :: r) = some (v, r) := by
  induction v with
  | nil => cases r <;> simp [scanQuoted]
  | cons c v ih =>
    have hc := h c (by simp)
    have ih := ih fun d hd => h d (by simp [hd])
    obtain ⟨d, l, hl⟩ : ∃ d l, v ++ 34 :: r = d :: l := by
      cases v with
      | nil => exact ⟨_, _, rfl⟩
      | cons d v => exact ⟨_, _, rfl⟩
    rw [List.cons_append, hl, scanQuoted, if_neg hc.1, if_neg hc.2, ← hl, ih]
    rfl

theorem keyChar_iff {c : UInt8} : keyChar c = true ↔ 32 < c ∧ c ≠ 58 ∧ c ≠ 34 ∧ c ≠ 0x7f := by
  simp [keyChar, and_assoc]

theorem dropSpaces {s : Bytes} (h : ∀ c ∈ s, c = 32) (r : Bytes) :
    (s ++ r).dropWhile (fun c : UInt8 => decide (c = 32)) = r.dropWhile fun c : UInt8 => decide (c = 32) :=
  List.dropWhile_append_of_pos (by simpa using h)

theorem key_first {k : Bytes} (h : GoodKey k) (r : Bytes) :
    (k ++ r).dropWhile (fun c : UInt8 => decide (c = 32)) = k ++ r := by
  obtain ⟨hn, hk⟩ := h
  cases k with
  | nil => exact absurd rfl hn
  | cons c k =>
    have : ¬ c = 32 := by
      rintro rfl
      have := (hk 32 (by simp)).1
      exact absurd this (by decide)
    simp [this]

/-- One round of `Lookup` over a pair. -/
theorem lookup_pair (unq : Bytes → Option Bytes) (key : Bytes) (n : Nat) {s r : Bytes} {p : Bytes × Bytes} (hs : ∀ c ∈ s, c = 32)
    (hk : GoodKey p.1) (hv : GoodValue p.2) :
    lookupN unq key (n + 1) (s ++ pairText p ++ r) = if p.1 = key then unq p.2 else lookupN unq key n r := by
  obtain ⟨k, v⟩ := p
  have e : (s ++ pairText (k, v) ++ r).dropWhile (fun c : UInt8 => decide (c = 32)) = k ++ 58 :: 34 :: (v ++ 34 :: r) := by
    rw [List.append_assoc, dropSpaces hs]
    rw [pairText, List.append_assoc, List.append_assoc, key_first hk]
    simp
  have hp : ∀ c ∈ k, keyChar c = true := fun c hc => keyChar_iff.2 (hk.2 c hc)
  have hq : keyChar 58 = false := by decide
  rw [lookupN]
  dsimp only
  rw [e, List.dropWhile_append_of_pos hp, List.takeWhile_append_of_pos hp, List.dropWhile_cons_of_neg (by simp [hq]),
    List.takeWhile_cons_of_neg (by simp [hq]), List.append_nil]
  have hk1 : k ≠ [] := hk.1
  have hq : scanQuoted (v ++ 34 :: r) = some (v, r) := scanQuoted_plain (fun c hc => ⟨(hv c hc).2.1, (hv c hc).2.2⟩) r
  simp [hk1, hq]

theorem lookup_spaces (unq : Bytes → Option Bytes) (key : Bytes) {s : Bytes} (hs : ∀ c ∈ s, c = 32) :
    ∀ n, lookupN unq key n s = none
  | 0 => rfl
  | n + 1 => by
    have e := dropSpaces hs []
    rw [List.append_nil] at e
    rw [lookupN, e]
    rfl

/-- The value of the first pair with that key. -/
def valueOf1 (key : Bytes) (ps : List (Bytes × Bytes)) : Option Bytes := (ps.find? fun p => p.1 = key).map Prod.snd

theorem lookup_conventional {unq : Bytes → Option Bytes} (hu : PlainUnquote unq) (key : Bytes) {t : Bytes} {ps : List (Bytes × Bytes)}
    (h : Conventional t ps) (hk : ∀ p ∈ ps, GoodKey p.1) (hv : ∀ p ∈ ps, GoodValue p.2 ∧ utf8Valid p.2 = true) :
    ∀ n, t.length < n → lookupN unq key n t = valueOf1 key ps := by
  induction h with
  | none hs => intro n _; rw [lookup_spaces _ _ hs]; rfl
  | @pair s r p ps hs _ _ ih =>
    intro n hn
    obtain ⟨m, rfl⟩ : ∃ m, n = m + 1 := ⟨n - 1, by omega⟩
    rw [lookup_pair unq key m hs (hk p (by simp)) (hv p (by simp)).1]
    by_cases hp : p.1 = key
    · rw [if_pos hp, hu p.2 (hv p (by simp)).2 fun c hc => ?_]
      · simp [valueOf1, hp]
      · have := (hv p (by simp)).1 c hc
        refine ⟨this.2.1, this.2.2, ?_⟩
        rintro rfl
        exact this.1 (.inr (.inr (.inl rfl)))
    · rw [if_neg hp, ih (fun q hq => hk q (by simp [hq])) (fun q hq => hv q (by simp [hq])) m (by
        simp only [List.length_append, pairText, List.length_cons] at hn
        omega)]
      simp [valueOf1, hp]

theorem notBlank_key {k : Bytes} (h : GoodKey k) : ∀ c ∈ k, ¬Blank c := by
  intro c hc hb
  have := (h.2 c hc).1
  rcases hb with rfl | rfl | rfl | rfl | rfl | rfl <;> exact absurd this (by decide)

theorem words_conventional {t : Bytes} {ps : List (Bytes × Bytes)} (h : Conventional t ps) (hk : ∀ p ∈ ps, GoodKey p.1)
    (hv : ∀ p ∈ ps, GoodValue p.2) : Words t (ps.map pairText) := by
  induction h with
  | none hs => exact .none fun c hc => .inl (hs c hc)
  | @pair s r p ps hs hr _ ih =>
    refine .word (fun c hc => .inl (hs c hc)) (by simp [pairText]) ?_ ?_ (ih (fun q hq => hk q (by simp [hq])) fun q hq => hv q (by simp [hq]))
    · intro c hc
      simp only [pairText, List.mem_append, List.mem_cons, List.not_mem_nil, or_false] at hc
      rcases hc with (hc | rfl | rfl | hc) | rfl
      · exact notBlank_key (hk p (by simp)) c hc
      · simp [Blank]
      · simp [Blank]
      · exact (hv p (by simp) c hc).1
      · simp [Blank]
    · rcases hr with rfl | ⟨r', rfl⟩
      · exact .inl rfl
      · exact .inr ⟨32, r', rfl, .inl rfl⟩

theorem hclWord_pair {p : Bytes × Bytes} (hk : GoodKey p.1) {rest : Bytes} :
    HclWord (pairText p) rest ↔ HclKey p.1 ∧ rest = p.2 ++ [34] := by
  obtain ⟨k, v⟩ := p
  constructor
  · rintro ⟨x, y, z, e, hx, hy, hz⟩
    simp only [pairText] at e
    have h58 : ∀ c ∈ k, c ≠ 58 := fun c hc => (hk.2 c hc).2.1
    rcases k with _ | ⟨a, _ | ⟨c, _ | ⟨d, _ | ⟨f, k⟩⟩⟩⟩
    · simp only [List.nil_append, List.cons_append, List.cons.injEq] at e
      rcases hx with rfl | rfl <;> exact absurd e.1 (by decide)
    · simp only [List.nil_append, List.cons_append, List.cons.injEq] at e
      rcases hy with rfl | rfl <;> exact absurd e.2.1 (by decide)
    · simp only [List.nil_append, List.cons_append, List.cons.injEq] at e
      rcases hz with rfl | rfl <;> exact absurd e.2.2.1 (by decide)
    · simp only [List.nil_append, List.cons_append, List.cons.injEq, true_and] at e
      obtain ⟨rfl, rfl, rfl, e⟩ := e
      exact ⟨⟨_, _, _, rfl, hx, hy, hz⟩, e.symm⟩
    · simp only [List.cons_append, List.cons.injEq] at e
      exact absurd e.2.2.2.1 (h58 f (by simp))
  · rintro ⟨⟨x, y, z, hxyz, hx, hy, hz⟩, rfl⟩
    simp only at hxyz
    exact ⟨x, y, z, by rw [pairText]; simp [hxyz], hx, hy, hz⟩

theorem tagLoopP_pairs : ∀ {ps : List (Bytes × Bytes)}, (∀ p ∈ ps, GoodKey p.1) → (∀ p ∈ ps, HclKey p.1 → p.1 = b "hcl") →
    tagLoopP (ps.map pairText) = .ok (splitTag ((valueOf1 (b "hcl") ps).getD []))
  | [], _, _ => rfl
  | p :: ps, hk, hh => by
    by_cases hp : HclKey p.1
    · rw [List.map_cons, tagLoopP_hcl ((hclWord_pair (hk p (by simp))).2 ⟨hp, rfl⟩)]
      simp [valueOf1, hh p (by simp) hp]
    · have hne : p.1 ≠ b "hcl" := fun e => hp (by
        rw [e]; exact ⟨104, 99, 108, by decide +kernel, .inl rfl, .inl rfl, .inl rfl⟩)
      have := tagLoopP_none (ws := [pairText p]) (by
        intro w hw rest hr
        rw [List.mem_singleton.1 hw, hclWord_pair (hk p (by simp))] at hr
        exact hp hr.1) (ps.map pairText)
      rw [List.map_cons]
      refine this.trans ?_
      rw [tagLoopP_pairs (fun q hq => hk q (by simp [hq])) fun q hq => hh q (by simp [hq])]
      simp [valueOf1, hne]

end Verif.HclS
