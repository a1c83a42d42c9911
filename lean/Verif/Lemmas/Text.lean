import Verif.Spec.Text
import Verif.Lemmas.Utf8
/-!
# Lemmas about replacing
-/
namespace Verif.Text
open Verif.Funcs

theorem hasPrefix_iff {s p : Bytes} : hasPrefix s p = true ↔ ∃ r, s = p ++ r := by
  unfold hasPrefix
  simp only [Bool.and_eq_true, decide_eq_true_eq, beq_iff_eq]
  constructor
  · rintro ⟨_, h⟩
    exact ⟨s.drop p.length, (List.take_append_drop p.length s).symm.trans (by rw [h])⟩
  · rintro ⟨r, rfl⟩
    simp

theorem cutFirst_none {old : Bytes} (ho : old ≠ []) : ∀ {s : Bytes}, cutFirst old s = none → ¬ Occurs old s
  | [], _ => by
    rintro ⟨p, q, h⟩
    have := congrArg List.length h
    have hl : old.length ≠ 0 := fun h => ho (List.length_eq_zero_iff.1 h)
    simp at this; omega
  | c :: r, h => by
    rw [cutFirst] at h
    split at h
    · cases h
    · next hp =>
      have ih := cutFirst_none ho (s := r) (by simpa using h)
      rintro ⟨p, q, hpq⟩
      cases p with
      | nil => exact hp (hasPrefix_iff.2 ⟨q, by simpa using hpq⟩)
      | cons d p =>
        simp only [List.cons_append, List.cons.injEq] at hpq
        exact ih ⟨p, q, hpq.2⟩

theorem cutFirst_some {old : Bytes} (ho : old ≠ []) : ∀ {s p r : Bytes}, cutFirst old s = some (p, r) →
    s = p ++ old ++ r ∧ FirstAtEnd old p
  | [], p, r, h => by simp [cutFirst, ho] at h
  | c :: t, p, r, h => by
    rw [cutFirst] at h
    split at h
    · next hp =>
      simp only [Option.some.injEq, Prod.mk.injEq] at h
      obtain ⟨rfl, rfl⟩ := h
      obtain ⟨x, hx⟩ := hasPrefix_iff.1 hp
      refine ⟨by rw [hx]; simp, ?_⟩
      intro u v huv
      have := congrArg List.length huv
      simp at this
      exact List.length_eq_zero_iff.1 (by omega)
    · next hp =>
      obtain ⟨⟨p', r'⟩, h1, h2⟩ := Option.map_eq_some_iff.1 h
      simp only [Prod.mk.injEq] at h2
      obtain ⟨rfl, rfl⟩ := h2
      obtain ⟨h3, h4⟩ := cutFirst_some ho h1
      refine ⟨by simp [h3], ?_⟩
      intro u v huv
      cases u with
      | nil =>
        exfalso
        apply hp
        rw [hasPrefix_iff]
        refine ⟨v ++ r', ?_⟩
        rw [h3]
        have : c :: p' ++ old ++ r' = old ++ v ++ r' := by rw [huv]; simp
        simpa using this
      | cons d u =>
        simp only [List.cons_append, List.cons.injEq] at huv
        exact h4 u v huv.2

theorem cut_ne_nil {old s : Bytes} {ps : List Bytes} (h : Cut old s ps) : ps ≠ [] := by
  cases h <;> simp

theorem glue_cons {new p : Bytes} {ps : List Bytes} (h : ps ≠ []) : glue new (p :: ps) = p ++ new ++ glue new ps := by
  cases ps with
  | nil => exact absurd rfl h
  | cons q r => rfl

theorem replaceLoop_cut {old : Bytes} (ho : old ≠ []) (new : Bytes) : ∀ n (s : Bytes), s.length ≤ n →
    ∃ ps, Cut old s ps ∧ replaceLoop old new n s = glue new ps
  | 0, s, h => by
    have hs : s = [] := List.length_eq_zero_iff.1 (by omega)
    subst hs
    refine ⟨[[]], .last ?_, rfl⟩
    rintro ⟨p, q, h⟩
    have := congrArg List.length h
    have hl : old.length ≠ 0 := fun h => ho (List.length_eq_zero_iff.1 h)
    simp at this; omega
  | n + 1, s, h => by
    rw [replaceLoop]
    split
    · next hc => exact ⟨[s], .last (cutFirst_none ho hc), rfl⟩
    · next p r hc =>
      obtain ⟨h1, h2⟩ := cutFirst_some ho hc
      have hl : old.length ≠ 0 := fun h => ho (List.length_eq_zero_iff.1 h)
      obtain ⟨ps, h3, h4⟩ := replaceLoop_cut ho new n r (by
        have := congrArg List.length h1
        simp at this; omega)
      refine ⟨p :: ps, by rw [h1]; exact .more h2 h3, ?_⟩
      rw [h4, glue_cons (cut_ne_nil h3)]

theorem glue_cut {old s : Bytes} {ps : List Bytes} (h : Cut old s ps) : glue old ps = s := by
  induction h with
  | last => rfl
  | more _ hc ih => rw [glue_cons (cut_ne_nil hc), ih]

theorem of_take {x y : Bytes} (h : x = y.take x.length) : y = x ++ y.drop x.length := by
  have h' := List.take_append_drop x.length y
  rw [← h] at h'
  exact h'.symm

/-- A text can be cut in one way only. -/
theorem Cut.unique {old : Bytes} : ∀ {s : Bytes} {ps qs : List Bytes}, Cut old s ps → Cut old s qs → ps = qs := by
  intro s ps qs h
  induction h generalizing qs with
  | last hn =>
    intro h'
    cases h' with
    | last => rfl
    | more _ _ => exact absurd ⟨_, _, rfl⟩ hn
  | @more p r ps hp hc ih =>
    intro h'
    generalize hs : p ++ old ++ r = s at h'
    cases h' with
    | last hn => exact absurd ⟨_, _, hs.symm⟩ hn
    | @more p' r' qs hp' hc' =>
      have key : p = p' := by
        rcases Nat.le_total p.length p'.length with hl | hl
        · have hle : (p ++ old).length ≤ (p' ++ old).length := by simp; omega
          have h1 : p ++ old = (p' ++ old).take (p ++ old).length := by
            have := congrArg (List.take (p ++ old).length) hs
            rwa [List.take_left, List.take_append_of_le_length hle] at this
          have h2 := hp' p ((p' ++ old).drop (p ++ old).length) (of_take h1)
          rw [List.drop_eq_nil_iff] at h2
          have h3 : p.length = p'.length := by simp at h2; omega
          exact (List.append_inj (by simpa using hs) h3).1
        · have hle : (p' ++ old).length ≤ (p ++ old).length := by simp; omega
          have h1 : p' ++ old = (p ++ old).take (p' ++ old).length := by
            have := congrArg (List.take (p' ++ old).length) hs.symm
            rwa [List.take_left, List.take_append_of_le_length hle] at this
          have h2 := hp p' ((p ++ old).drop (p' ++ old).length) (of_take h1)
          rw [List.drop_eq_nil_iff] at h2
          have h3 : p.length = p'.length := by simp at h2; omega
          exact (List.append_inj (by simpa using hs) h3).1
      subst key
      have hr : r = r' := (List.append_cancel_left (by simpa using hs : old ++ r = old ++ r'))
      subst hr
      rw [ih hc']

theorem slashed_iff {t : Bytes} : slashed t = true ↔ Slashed t := by
  unfold slashed Slashed
  simp only [Bool.and_eq_true, decide_eq_true_eq, beq_iff_eq]
  constructor
  · rintro ⟨⟨h1, h2⟩, h3⟩
    cases t with
    | nil => simp at h1
    | cons c r =>
      simp only [List.head?_cons, Option.some.injEq] at h2
      subst h2
      have hr : r ≠ [] := by rintro rfl; simp at h1
      rw [List.getLast?_cons_of_ne_nil hr, List.getLast?_eq_some_iff] at h3
      obtain ⟨p, rfl⟩ := h3
      exact ⟨p, rfl⟩
  · rintro ⟨p, rfl⟩
    refine ⟨⟨by simp, rfl⟩, ?_⟩
    rw [List.getLast?_cons_of_ne_nil (by simp), List.getLast?_concat]

theorem slashed_inner (p : Bytes) : ((47 :: (p ++ [47]) : Bytes).drop 1).dropLast = p := by simp

theorem runeWidth_encode (n : Nat) (hn : IsScalar n) (s : Bytes) :
    runeWidth (utf8Encode n ++ s) = (utf8Encode n).length := by
  unfold IsScalar at hn
  have k1 : (0x80 : UInt8).toNat = 128 := rfl
  have k2 : (0xC2 : UInt8).toNat = 194 := rfl
  have k3 : (0xDF : UInt8).toNat = 223 := rfl
  have k4 : (0xE0 : UInt8).toNat = 224 := rfl
  have k5 : (0xEF : UInt8).toNat = 239 := rfl
  have k6 : (0xED : UInt8).toNat = 237 := rfl
  have k7 : (0xF0 : UInt8).toNat = 240 := rfl
  have k8 : (0xF4 : UInt8).toNat = 244 := rfl
  have k9 : (0xBF : UInt8).toNat = 191 := rfl
  have k10 : (0xA0 : UInt8).toNat = 160 := rfl
  have k11 : (0x9F : UInt8).toNat = 159 := rfl
  have k12 : (0x90 : UInt8).toNat = 144 := rfl
  have k13 : (0x8F : UInt8).toNat = 143 := rfl
  unfold utf8Encode
  split
  · have e := u8_toNat_ofNat (n := n) (by omega)
    simp only [List.cons_append, List.nil_append]
    unfold runeWidth
    dsimp only
    rw [if_neg (by rw [utf8Cont_iff, e, k2, k3]; omega), if_neg (by rw [utf8Cont_iff, e, k4, k5]; omega),
      if_neg (by rw [utf8Cont_iff, e, k7, k8]; omega)]
    rfl
  · split
    · have e0 := u8_toNat_ofNat (n := 0xC0 + n / 64) (by omega)
      have e1 := u8_toNat_ofNat (n := 0x80 + n % 64) (by omega)
      simp only [List.cons_append, List.nil_append]
      unfold runeWidth
      dsimp only
      rw [if_pos (by rw [utf8Cont_iff, e0, k2, k3]; omega)]
      rw [if_pos (by rw [utf8Cont_iff, e1, k1, k9]; omega)]
      rfl
    · split
      · have e0 := u8_toNat_ofNat (n := 0xE0 + n / 4096) (by omega)
        have e1 := u8_toNat_ofNat (n := 0x80 + n / 64 % 64) (by omega)
        have e2 := u8_toNat_ofNat (n := 0x80 + n % 64) (by omega)
        simp only [List.cons_append, List.nil_append]
        unfold runeWidth
        dsimp only
        rw [if_neg (by rw [utf8Cont_iff, e0, k2, k3]; omega),
          if_pos (by rw [utf8Cont_iff, e0, k4, k5]; omega)]
        rw [if_pos]
        · rfl
        · simp only [Bool.and_eq_true, utf8Cont_iff, e1, e2, u8_eq, e0, k4, k6]
          refine ⟨?_, by rw [k1, k9]; omega⟩
          split <;> split <;> simp only [k1, k9, k10, k11] <;> omega
      · have e0 := u8_toNat_ofNat (n := 0xF0 + n / 262144) (by omega)
        have e1 := u8_toNat_ofNat (n := 0x80 + n / 4096 % 64) (by omega)
        have e2 := u8_toNat_ofNat (n := 0x80 + n / 64 % 64) (by omega)
        have e3 := u8_toNat_ofNat (n := 0x80 + n % 64) (by omega)
        simp only [List.cons_append, List.nil_append]
        unfold runeWidth
        dsimp only
        rw [if_neg (by rw [utf8Cont_iff, e0, k2, k3]; omega),
          if_neg (by rw [utf8Cont_iff, e0, k4, k5]; omega),
          if_pos (by rw [utf8Cont_iff, e0, k7, k8]; omega)]
        rw [if_pos]
        · rfl
        · simp only [Bool.and_eq_true, utf8Cont_iff, e1, e2, e3, u8_eq, e0, k7, k8]
          refine ⟨⟨?_, by rw [k1, k9]; omega⟩, by rw [k1, k9]; omega⟩
          split <;> split <;> simp only [k1, k9, k12, k13] <;> omega

theorem encode_pos (n : Nat) : 0 < (utf8Encode n).length := by
  unfold utf8Encode
  repeat' split
  all_goals simp

theorem spread_utf8 (new : Bytes) : ∀ (cs : List Nat), (∀ c ∈ cs, IsScalar c) → ∀ n, (cs.flatMap utf8Encode).length ≤ n →
    spread new n (cs.flatMap utf8Encode) = cs.flatMap fun c => utf8Encode c ++ new
  | [], _, n, _ => by cases n <;> rfl
  | c :: cs, h, n, hn => by
    have hp := encode_pos c
    rw [List.flatMap_cons, List.length_append] at hn
    cases n with
    | zero => omega
    | succ n =>
      have hw := runeWidth_encode c (h c (by simp)) (cs.flatMap utf8Encode)
      rw [List.flatMap_cons, List.flatMap_cons, spread]
      · rw [hw, List.take_left, List.drop_left, spread_utf8 new cs (fun x hx => h x (by simp [hx])) n (by omega)]
      · intro heq
        have := congrArg List.length heq
        rw [List.length_append, List.length_nil] at this; omega

theorem containsB_iff {s t : Bytes} : containsB s t = true ↔ Occurs t s := by
  induction s with
  | nil =>
    simp only [containsB, Occurs]
    constructor
    · intro h; exact ⟨[], [], by simp_all⟩
    · rintro ⟨p, q, h⟩; simp_all
  | cons c r ih =>
    rw [containsB, Bool.or_eq_true, ih, hasPrefix_iff]
    constructor
    · rintro (⟨q, h⟩ | ⟨p, q, h⟩)
      · exact ⟨[], q, by simpa using h⟩
      · exact ⟨c :: p, q, by simp [h]⟩
    · rintro ⟨p, q, h⟩
      cases p with
      | nil => exact .inl ⟨q, by simpa using h⟩
      | cons d p =>
        simp only [List.cons_append, List.cons.injEq] at h
        exact .inr ⟨p, q, h.2⟩

/-- The first three bytes of a text of characters are those of U+FFFD only if the first character is U+FFFD. -/
theorem head_fffd {n : Nat} (hn : IsScalar n) {s q : Bytes} (h : utf8Encode n ++ s = 0xEF :: 0xBF :: 0xBD :: q) : n = 0xFFFD := by
  unfold IsScalar at hn
  have k5 : (0xEF : UInt8).toNat = 239 := rfl
  have k9 : (0xBF : UInt8).toNat = 191 := rfl
  have k10 : (0xBD : UInt8).toNat = 189 := rfl
  unfold utf8Encode at h
  split at h
  · have e := u8_toNat_ofNat (n := n) (by omega)
    simp only [List.cons_append, List.nil_append, List.cons.injEq, u8_eq, e, k5] at h
    omega
  · split at h
    · have e0 := u8_toNat_ofNat (n := 0xC0 + n / 64) (by omega)
      simp only [List.cons_append, List.nil_append, List.cons.injEq, u8_eq, e0, k5] at h
      omega
    · split at h
      · have e0 := u8_toNat_ofNat (n := 0xE0 + n / 4096) (by omega)
        have e1 := u8_toNat_ofNat (n := 0x80 + n / 64 % 64) (by omega)
        have e2 := u8_toNat_ofNat (n := 0x80 + n % 64) (by omega)
        simp only [List.cons_append, List.nil_append, List.cons.injEq, u8_eq, e0, e1, e2, k5, k9, k10] at h
        omega
      · have e0 := u8_toNat_ofNat (n := 0xF0 + n / 262144) (by omega)
        simp only [List.cons_append, List.nil_append, List.cons.injEq, u8_eq, e0, k5] at h
        omega

/-- The bytes of a character after the first are not the byte EF. -/
theorem tail_not_ef (n : Nat) : ∀ x ∈ (utf8Encode n).tail, x ≠ 0xEF := by
  have k5 : (0xEF : UInt8).toNat = 239 := rfl
  unfold utf8Encode
  split
  · simp
  · split
    · have e1 := u8_toNat_ofNat (n := 0x80 + n % 64) (by omega)
      intro x hx
      simp only [List.tail_cons, List.mem_singleton] at hx
      subst hx
      rw [Ne, u8_eq, e1, k5]; omega
    · split
      · have e1 := u8_toNat_ofNat (n := 0x80 + n / 64 % 64) (by omega)
        have e2 := u8_toNat_ofNat (n := 0x80 + n % 64) (by omega)
        intro x hx
        simp only [List.tail_cons, List.mem_cons, List.not_mem_nil, or_false] at hx
        rcases hx with rfl | rfl <;> rw [Ne, u8_eq, k5]
        · rw [e1]; omega
        · rw [e2]; omega
      · have e1 := u8_toNat_ofNat (n := 0x80 + n / 4096 % 64) (by omega)
        have e2 := u8_toNat_ofNat (n := 0x80 + n / 64 % 64) (by omega)
        have e3 := u8_toNat_ofNat (n := 0x80 + n % 64) (by omega)
        intro x hx
        simp only [List.tail_cons, List.mem_cons, List.not_mem_nil, or_false] at hx
        rcases hx with rfl | rfl | rfl <;> rw [Ne, u8_eq, k5]
        · rw [e1]; omega
        · rw [e2]; omega
        · rw [e3]; omega

theorem fffd_eq : fffd = [0xEF, 0xBF, 0xBD] := by decide

/-- If EF is not among the bytes before, then what begins with it is found after them. -/
theorem occurs_skip {t : Bytes} : ∀ {x s : Bytes}, (∀ c ∈ x, c ≠ 0xEF) → Occurs (0xEF :: t) (x ++ s) → Occurs (0xEF :: t) s
  | [], _, _, h => h
  | c :: x, s, hx, ⟨p, q, h⟩ => by
    cases p with
    | nil =>
      simp only [List.cons_append, List.nil_append, List.cons.injEq] at h
      exact absurd h.1 (hx c (by simp))
    | cons d p =>
      simp only [List.cons_append, List.cons.injEq] at h
      exact occurs_skip (x := x) (fun c hc => hx c (List.mem_cons_of_mem _ hc)) ⟨p, q, by simpa using h.2⟩

/-- The bytes of U+FFFD are found in a text of characters exactly if it is one of them. -/
theorem occurs_fffd : ∀ {cs : List Nat}, (∀ c ∈ cs, IsScalar c) → (Occurs fffd (cs.flatMap utf8Encode) ↔ 0xFFFD ∈ cs)
  | [], _ => by
    rw [fffd_eq]
    constructor
    · rintro ⟨p, q, h⟩
      have := congrArg List.length h
      simp at this
    · intro h; cases h
  | c :: cs, h => by
    have hc := h c (by simp)
    have ih := occurs_fffd (cs := cs) (fun x hx => h x (by simp [hx]))
    rw [List.flatMap_cons, List.mem_cons]
    constructor
    · rintro ⟨p, q, hpq⟩
      cases p with
      | nil =>
        left
        rw [fffd_eq] at hpq
        exact (head_fffd hc (by simpa using hpq)).symm
      | cons d p =>
        right
        rw [← ih, fffd_eq]
        have hne : utf8Encode c ≠ [] := fun he => by have := encode_pos c; rw [he] at this; simp at this
        obtain ⟨y, ys, hy⟩ := List.exists_cons_of_ne_nil hne
        have ht := tail_not_ef c
        rw [hy, List.tail_cons] at ht
        rw [hy, List.cons_append, fffd_eq] at hpq
        simp only [List.cons_append, List.cons.injEq] at hpq
        exact occurs_skip ht ⟨p, q, hpq.2⟩
    · rintro (rfl | hm)
      · exact ⟨[], cs.flatMap utf8Encode, by simp [fffd]⟩
      · obtain ⟨p, q, hpq⟩ := ih.2 hm
        exact ⟨utf8Encode c ++ p, q, by rw [hpq]; simp⟩

theorem hasErrorRune_utf8 {cs : List Nat} (h : ∀ c ∈ cs, IsScalar c) :
    hasErrorRune (cs.flatMap utf8Encode) = true ↔ 0xFFFD ∈ cs := by
  have hv : utf8Valid (cs.flatMap utf8Encode) = true := valid_of_isUtf8 ⟨cs, h, rfl⟩
  unfold hasErrorRune
  rw [hv, ← fffd_eq, Bool.not_true, Bool.false_or, containsB_iff, occurs_fffd h]

end Verif.Text
