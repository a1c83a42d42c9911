import Verif.Lemmas.IP6
/-! `parseIPv6`, `ParseIP` and `ParseCIDR` against the grammar. -/
set_option linter.unusedSimpArgs false
namespace Verif.IPAddr

theorem groupBytes_append (a c : List Nat) : groupBytes (a ++ c) = groupBytes a ++ groupBytes c := by
  simp [groupBytes]

theorem groupBytes_zero (n : Nat) : groupBytes (List.replicate n 0) = List.replicate (2 * n) 0 := by
  induction n with
  | zero => rfl
  | succ n ih =>
    rw [List.replicate_succ, groupBytes_cons, ih, show 2 * (n + 1) = 2 * n + 1 + 1 by omega]
    rfl

theorem hexgroups_len {s gs} (h : HexGroups s gs) : 1 ≤ gs.length := by
  cases h <;> simp

theorem parseIPv6_iff (s : Bytes) : ∃ r, parseIPv6 s = some r ∧
    ∀ out, r = some out ↔ ∃ gs, IPv6Text s gs ∧ out = groupBytes gs := by
  unfold parseIPv6
  dsimp only
  by_cases h : s.length ≥ 2 ∧ s[0]? = some 58 ∧ s[1]? = some 58
  · rw [if_pos h]
    obtain ⟨h1, h2, h3⟩ := h
    match s, h1, h2, h3 with
    | x :: y :: s, _, h2, h3 =>
      simp only [List.getElem?_cons_zero, List.getElem?_cons_succ, Option.some.injEq] at h2 h3
      subst h2 h3
      -- what `IPv6Text` says here
      have hT : ∀ gs, IPv6Text (58 :: 58 :: s) gs ↔ ∃ rg, (s = [] ∧ rg = [] ∨ Groups s rg) ∧
          rg.length ≤ 7 ∧ gs = List.replicate (8 - rg.length) 0 ++ rg := by
        intro gs
        constructor
        · intro hh
          generalize he : (58 :: 58 :: s : Bytes) = t at hh
          cases hh with
          | full hg _ =>
            subst he
            obtain ⟨x, r, he, hx⟩ := hg.head_hex
            cases he; exact absurd (by decide) hx
          | @ellipsis l r lg rg hl hr hn =>
            rcases hl with ⟨rfl, rfl⟩ | hl
            · simp only [List.nil_append, List.cons.injEq, true_and] at he
              subst he
              exact ⟨rg, hr, by simpa using hn, by simp⟩
            · obtain ⟨x, l', rfl, hx⟩ := hl.head_hex
              simp only [List.cons_append, List.cons.injEq] at he
              rw [← he.1] at hx
              exact absurd (by decide) hx
        · rintro ⟨rg, hr, hn, rfl⟩
          have := IPv6Text.ellipsis (l := []) (lg := []) (.inl ⟨rfl, rfl⟩) hr (by simpa using hn)
          simpa using this
      simp only [sliceFrom, List.length_cons, Nat.le_add_left, if_true, List.drop_succ_cons,
        List.drop_zero]
      cases s with
      | nil =>
        refine ⟨_, rfl, fun out => ?_⟩
        simp only [hT]
        constructor
        · intro h; cases h; exact ⟨_, ⟨[], by simp, by simp, rfl⟩, by decide⟩
        · rintro ⟨gs, ⟨rg, h1 | h1, _, rfl⟩, rfl⟩
          · obtain ⟨_, rfl⟩ := h1; decide
          · obtain ⟨x, r, he, _⟩ := h1.head_hex; cases he
      | cons z s =>
        simp only [List.length_cons, Nat.succ_ne_zero, if_false]
        obtain ⟨r, h4, h5⟩ := loop6_iff 9 0 (z :: s) (some 0) (List.replicate 16 0) (by omega)
          (by omega) rfl (by simp) (by simp) (fun e he => by cases he; exact Nat.le_refl _)
        refine ⟨r, h4, fun out => ?_⟩
        rw [h5]
        simp only [hT, Res, Res2, Nat.zero_add, List.take_zero, List.nil_append, List.drop_nil,
          List.append_nil]
        constructor
        · rintro ⟨gs, h6, h7, rfl⟩
          refine ⟨_, ⟨gs, .inr h6, by omega, rfl⟩, ?_⟩
          rw [groupBytes_append, groupBytes_zero]
          congr 2; omega
        · rintro ⟨_, ⟨rg, h6 | h6, h7, rfl⟩, rfl⟩
          · cases h6.1
          · refine ⟨rg, h6, by omega, ?_⟩
            rw [groupBytes_append, groupBytes_zero]
            congr 2; omega
  · rw [if_neg h]
    cases s with
    | nil =>
      refine ⟨none, by decide, fun out => ⟨fun h => (by cases h), ?_⟩⟩
      rintro ⟨gs, hg, _⟩
      generalize he : ([] : Bytes) = t at hg
      cases hg with
      | full hg _ => subst he; obtain ⟨x, r, he, _⟩ := hg.head_hex; cases he
      | ellipsis => simp at he
    | cons z s =>
      obtain ⟨r, h4, h5⟩ := loop6_iff 9 0 (z :: s) none (List.replicate 16 0) (by omega)
        (by omega) rfl (by simp) (by simp) (fun e he => by cases he)
      refine ⟨r, h4, fun out => ?_⟩
      rw [h5]
      simp only [Res, Res1, Nat.zero_add, List.take_zero, List.nil_append]
      constructor
      · rintro (⟨gs, h6, h7, rfl⟩ | ⟨lg, rg, ⟨l, r, hl, hr, he⟩, h7, rfl⟩)
        · exact ⟨gs, .full h6 (by omega), rfl⟩
        · refine ⟨_, he ▸ IPv6Text.ellipsis (.inr hl) hr (by omega), ?_⟩
          rw [groupBytes_append, groupBytes_append, groupBytes_zero]
          congr 3; omega
      · rintro ⟨gs, hg, rfl⟩
        generalize he : z :: s = t at hg
        cases hg with
        | full hg hn => subst he; exact .inl ⟨gs, hg, by omega, rfl⟩
        | @ellipsis l r lg rg hl hr hn =>
          rcases hl with ⟨rfl, rfl⟩ | hl
          · simp only [List.nil_append, List.cons.injEq] at he
            obtain ⟨rfl, rfl⟩ := he
            exact absurd ⟨by simp, rfl, rfl⟩ h
          · refine .inr ⟨lg, rg, ⟨l, r, hl, hr, rfl⟩, by omega, ?_⟩
            rw [groupBytes_append, groupBytes_append, groupBytes_zero]
            congr 3; omega

/-! ## `ParseIP` -/

theorem numeral_all {dig : UInt8 → Nat → Prop} {base t v} (h : Numeral dig base t v) :
    ∀ c ∈ t, ∃ d, dig c d := by
  induction h with
  | one h => intro c hc; simp at hc; exact hc ▸ ⟨_, h⟩
  | snoc _ h ih =>
    intro c hc
    rcases List.mem_append.mp hc with hc | hc
    · exact ih c hc
    · simp at hc; exact hc ▸ ⟨_, h⟩

/-- The first separator decides. -/
inductive FirstSep : Bytes → Option UInt8 → Prop
  | none {s} : (46 : UInt8) ∉ s → (58 : UInt8) ∉ s → FirstSep s none
  | sep {p c r} : (46 : UInt8) ∉ p → (58 : UInt8) ∉ p → c = 46 ∨ c = 58 →
      FirstSep (p ++ c :: r) (some c)

theorem parseIPLoop_sep (t : Bytes) {s o} (h : FirstSep s o) : parseIPLoop t s =
    match o with
    | none => some none
    | some c => if c = 46 then parseIPv4 t else parseIPv6 t := by
  cases h with
  | none h1 h2 =>
    dsimp only
    induction s with
    | nil => rfl
    | cons x s ih =>
      simp only [List.mem_cons, not_or] at h1 h2
      rw [parseIPLoop, if_neg (Ne.symm h1.1), if_neg (Ne.symm h2.1)]
      exact ih h1.2 h2.2
  | @sep p c r h1 h2 hc =>
    dsimp only
    induction p with
    | nil =>
      rcases hc with rfl | rfl
      · rfl
      · rfl
    | cons x s ih =>
      simp only [List.mem_cons, not_or] at h1 h2
      rw [List.cons_append, parseIPLoop, if_neg (Ne.symm h1.1), if_neg (Ne.symm h2.1)]
      exact ih h1.2 h2.2

theorem firstSep_exists (s : Bytes) : ∃ o, FirstSep s o := by
  induction s with
  | nil => exact ⟨none, .none (by simp) (by simp)⟩
  | cons x s ih =>
    by_cases h1 : x = 46
    · exact ⟨some x, FirstSep.sep (p := []) (by simp) (by simp) (.inl h1)⟩
    · by_cases h2 : x = 58
      · exact ⟨some x, FirstSep.sep (p := []) (by simp) (by simp) (.inr h2)⟩
      · obtain ⟨o, h⟩ := ih
        cases h with
        | none h3 h4 => exact ⟨none, .none (by simp [Ne.symm h1, h3]) (by simp [Ne.symm h2, h4])⟩
        | @sep p c r h3 h4 hc =>
          exact ⟨some c, FirstSep.sep (p := x :: p) (by simp [Ne.symm h1, h3]) (by simp [Ne.symm h2, h4]) hc⟩

theorem firstSep_unique {s o o'} (h : FirstSep s o) (h' : FirstSep s o') : o = o' := by
  induction s generalizing o o' with
  | nil =>
    generalize he : ([] : Bytes) = t at h h'
    cases h with
    | none => cases h' with
      | none => rfl
      | sep => simp at he
    | sep => simp at he
  | cons x s ih =>
    by_cases hx : x = 46 ∨ x = 58
    · have : ∀ o, FirstSep (x :: s) o → o = some x := by
        intro o h
        generalize he : x :: s = t at h
        cases h with
        | none h1 h2 => subst he; simp only [List.mem_cons, not_or] at h1 h2; rcases hx with rfl | rfl <;> simp_all
        | @sep p c r h1 h2 hc =>
          cases p with
          | nil => simp at he; rw [he.1]
          | cons y p =>
            simp only [List.cons_append, List.cons.injEq] at he
            obtain ⟨rfl, _⟩ := he
            simp only [List.mem_cons, not_or] at h1 h2
            rcases hx with rfl | rfl <;> simp_all
      rw [this _ h, this _ h']
    · have : ∀ o, FirstSep (x :: s) o → FirstSep s o := by
        intro o h
        generalize he : x :: s = t at h
        cases h with
        | none h1 h2 => subst he; simp only [List.mem_cons, not_or] at h1 h2; exact .none h1.2 h2.2
        | @sep p c r h1 h2 hc =>
          cases p with
          | nil => simp at he; rw [he.1] at hx; exact absurd hc hx
          | cons y p =>
            simp only [List.cons_append, List.cons.injEq] at he
            obtain ⟨rfl, rfl⟩ := he
            simp only [List.mem_cons, not_or] at h1 h2
            exact .sep h1.2 h2.2 hc
      exact ih (this _ h) (this _ h')

theorem not_mem_dec {t v} (h : Numeral IsDec 10 t v) : (46 : UInt8) ∉ t ∧ (58 : UInt8) ∉ t ∧ (47 : UInt8) ∉ t := by
  refine ⟨fun hc => ?_, fun hc => ?_, fun hc => ?_⟩ <;>
  · obtain ⟨d, hd⟩ := numeral_all h _ hc
    rw [← decDigit_iff] at hd
    cases hd

theorem not_mem_hex {t v} (h : Numeral IsHex 16 t v) : (46 : UInt8) ∉ t ∧ (58 : UInt8) ∉ t ∧ (47 : UInt8) ∉ t := by
  refine ⟨fun hc => ?_, fun hc => ?_, fun hc => ?_⟩ <;>
  · obtain ⟨d, hd⟩ := numeral_all h _ hc
    rw [← hexDigit_iff] at hd
    cases hd

theorem quad_sep {s o} (h : Quad s o) : FirstSep s (some 46) := by
  obtain ⟨t0, t1, t2, t3, v0, v1, v2, v3, h0, h1, h2, h3, rfl, _⟩ := h
  exact .sep (not_mem_dec h0.1).1 (not_mem_dec h0.1).2.1 (.inl rfl)

theorem hexgroups_sep {s gs} (h : HexGroups s gs) (r : Bytes) : FirstSep (s ++ 58 :: r) (some 58) := by
  cases h with
  | one h => exact .sep (not_mem_hex h.1).1 (not_mem_hex h.1).2.1 (.inr rfl)
  | cons h _ =>
    rw [List.append_assoc]
    exact .sep (not_mem_hex h.1).1 (not_mem_hex h.1).2.1 (.inr rfl)

theorem ipv6_sep {s gs} (h : IPv6Text s gs) : FirstSep s (some 58) := by
  cases h with
  | full h hn =>
    cases h with
    | one h => simp at hn
    | quad h => simp at hn
    | cons h _ => exact .sep (not_mem_hex h.1).1 (not_mem_hex h.1).2.1 (.inr rfl)
  | ellipsis hl hr hn =>
    rcases hl with ⟨rfl, rfl⟩ | hl
    · exact FirstSep.sep (p := []) (by simp) (by simp) (.inr rfl)
    · exact hexgroups_sep hl _

theorem parseIP_iff (s : Bytes) : ∃ r, parseIP s = some r ∧ ∀ out, r = some out ↔
    (∃ o, Quad s o ∧ out = mappedPrefix ++ o.map UInt8.ofNat) ∨
    (∃ gs, IPv6Text s gs ∧ out = groupBytes gs) := by
  obtain ⟨o, ho⟩ := firstSep_exists s
  rw [parseIP, parseIPLoop_sep s ho]
  obtain ⟨r4, h1, h2⟩ := parseIPv4_iff s
  obtain ⟨r6, h3, h4⟩ := parseIPv6_iff s
  match o, ho with
  | none, ho =>
    refine ⟨none, rfl, fun out => ⟨fun h => (by cases h), ?_⟩⟩
    rintro (⟨_, hq, _⟩ | ⟨_, hg, _⟩)
    · cases firstSep_unique ho (quad_sep hq)
    · cases firstSep_unique ho (ipv6_sep hg)
  | some c, ho =>
    dsimp only
    by_cases hc : c = 46
    · subst hc
      refine ⟨r4, by rw [if_pos rfl]; exact h1, fun out => ?_⟩
      rw [h2]
      constructor
      · exact .inl
      · rintro (h | ⟨_, hg, _⟩)
        · exact h
        · cases firstSep_unique ho (ipv6_sep hg)
    · refine ⟨r6, by rw [if_neg hc]; exact h3, fun out => ?_⟩
      rw [h4]
      constructor
      · exact .inr
      · rintro (⟨_, hq, _⟩ | h)
        · cases firstSep_unique ho (quad_sep hq); exact absurd rfl hc
        · exact h

end Verif.IPAddr
