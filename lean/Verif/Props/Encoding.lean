import Verif.Model.Encoding
import Verif.Spec.Encoding
import Mathlib.Tactic.IntervalCases
set_option linter.unusedSimpArgs false
/-! Base64 and URL encoding (C23, C24). -/
namespace Verif.Funcs

theorem b64Char_letter : ∀ n < 64, b64Char n = letter n := by decide +kernel

theorem b64Index_letter : ∀ n < 64, b64Index (letter n) = some n := by decide +kernel

theorem letter_ascii : ∀ n < 64, letter n < 128 ∧ letter n ≠ 10 ∧ letter n ≠ 13 ∧ letter n ≠ 61 := by decide +kernel

/-- C23: `base64encode` is the encoding of RFC 4648. -/
theorem encodes_encode : ∀ s : Bytes, Encodes s (b64Encode s)
  | [] => .nil
  | [x] => by
    have := x.toNat_lt
    simp only [b64Encode]
    rw [b64Char_letter _ (by omega), b64Char_letter _ (by omega)]
    exact .one (by omega) (by omega) (by omega)
  | [x, y] => by
    have := x.toNat_lt
    have := y.toNat_lt
    simp only [b64Encode]
    rw [b64Char_letter _ (by omega), b64Char_letter _ (by omega), b64Char_letter _ (by omega)]
    exact .two (by omega) (by omega) (by omega) (by omega)
  | x :: y :: z :: r => by
    have := x.toNat_lt
    have := y.toNat_lt
    have := z.toNat_lt
    simp only [b64Encode]
    rw [b64Char_letter _ (by omega), b64Char_letter _ (by omega), b64Char_letter _ (by omega), b64Char_letter _ (by omega)]
    exact .three (by omega) (by omega) (by omega) (by omega) (by omega) (encodes_encode r)

theorem Encodes.ascii {s t : Bytes} (h : Encodes s t) : ∀ c ∈ t, c < 128 ∧ c ≠ 10 ∧ c ≠ 13 := by
  have e : ∀ n < 64, letter n < 128 ∧ letter n ≠ 10 ∧ letter n ≠ 13 := fun n hn =>
    let h := letter_ascii n hn
    ⟨h.1, h.2.1, h.2.2.1⟩
  induction h with
  | nil => simp
  | one h1 h2 _ => simp [e _ h1, e _ h2]
  | two h1 h2 h3 _ => simp [e _ h1, e _ h2, e _ h3]
  | three h1 h2 h3 h4 _ _ ih => simpa [e _ h1, e _ h2, e _ h3, e _ h4] using ih

theorem toUInt8_of {n : Nat} {x : UInt8} (h : n = x.toNat) : n.toUInt8 = x := by
  subst h; simp

theorem Reads.decodeQ {s t : Bytes} (h : Reads s t) : b64DecodeQ t = some s := by
  have e61 : b64Index 61 = none := by decide
  induction h with
  | nil => rfl
  | @one x g h h1 h2 h3 =>
    simp only [b64DecodeQ, b64Index_letter _ h1, b64Index_letter _ h2, e61]
    rw [toUInt8_of (x := x) (by omega)]; rfl
  | @two x y g h i h1 h2 h3 h4 =>
    have := y.toNat_lt
    simp only [b64DecodeQ, b64Index_letter _ h1, b64Index_letter _ h2, b64Index_letter _ h3, e61]
    rw [toUInt8_of (x := x) (by omega), toUInt8_of (x := y) (by omega)]; rfl
  | @three x y z g h i j s t h1 h2 h3 h4 h5 _ ih =>
    have := y.toNat_lt
    have := z.toNat_lt
    simp only [b64DecodeQ, b64Index_letter _ h1, b64Index_letter _ h2, b64Index_letter _ h3, b64Index_letter _ h4, ih]
    rw [toUInt8_of (x := x) (by omega), toUInt8_of (x := y) (by omega), toUInt8_of (x := z) (by omega)]; rfl

theorem Encodes.reads {s t : Bytes} (h : Encodes s t) : Reads s t := by
  induction h with
  | nil => exact .nil
  | one h1 h2 h3 => exact .one h1 h2 (by omega)
  | two h1 h2 h3 h4 => exact .two h1 h2 h3 (by omega)
  | three h1 h2 h3 h4 h5 _ ih => exact .three h1 h2 h3 h4 h5 ih

theorem b64Index_some {c : UInt8} {n : Nat} (h : b64Index c = some n) : n < 64 ∧ c = letter n := by
  have hall : ∀ m : Fin 256, ∀ k ∈ b64Index (UInt8.ofNat m), k < 64 ∧ UInt8.ofNat m = letter k := by decide +kernel
  have := hall ⟨c.toNat, c.toNat_lt⟩ n
  simp only [UInt8.ofNat_toNat] at this
  exact this h

theorem reads_decodeQ : ∀ {t s : Bytes}, b64DecodeQ t = some s → Reads s t
  | [], s, h => by cases h; exact .nil
  | [_], _, h => by cases h
  | [_, _], _, h => by cases h
  | [_, _, _], _, h => by cases h
  | c0 :: c1 :: c2 :: c3 :: r, s, h => by
    rw [b64DecodeQ] at h
    cases h0 : b64Index c0 with
    | none => simp [h0] at h
    | some w =>
    cases h1 : b64Index c1 with
    | none => simp [h0, h1] at h
    | some x =>
    obtain ⟨l0, rfl⟩ := b64Index_some h0
    obtain ⟨l1, rfl⟩ := b64Index_some h1
    have hu : ∀ n < 256, n.toUInt8.toNat = n := fun n hn => by simp [Nat.mod_eq_of_lt hn]
    cases h2 : b64Index c2 with
    | none =>
      simp only [h0, h1, h2] at h
      split at h
      · rename_i e
        obtain ⟨rfl, rfl, rfl⟩ := e
        cases h
        exact .one l0 l1 (by rw [hu _ (by omega)]; omega)
      · cases h
    | some y =>
    obtain ⟨l2, rfl⟩ := b64Index_some h2
    cases h3 : b64Index c3 with
    | none =>
      simp only [h0, h1, h2, h3] at h
      split at h
      · rename_i e
        obtain ⟨rfl, rfl⟩ := e
        cases h
        exact .two l0 l1 l2 (by rw [hu _ (by omega), hu _ (by omega)]; omega)
      · cases h
    | some z =>
    obtain ⟨l3, rfl⟩ := b64Index_some h3
    simp only [h0, h1, h2, h3] at h
    obtain ⟨u, hu', rfl⟩ := Option.map_eq_some_iff.1 h
    exact .three l0 l1 l2 l3 (by rw [hu _ (by omega), hu _ (by omega), hu _ (by omega)]; omega) (reads_decodeQ hu')

theorem Encodes.decode {s t : Bytes} (h : Encodes s t) : b64Decode t = some s := by
  unfold b64Decode
  rw [List.filter_eq_self.2]
  · exact h.reads.decodeQ
  · intro c hc
    have := h.ascii c hc
    simp [this.2.1, this.2.2]

/-- C23: `base64encode` gives the encoding of RFC 4648, and it is the only such text. -/
theorem C23_encode {nfc : Bytes → Bytes} (hn : FixesAscii nfc) (s t : Bytes) :
    base64Encode nfc s = t ↔ Encodes s t := by
  have e := encodes_encode s
  unfold base64Encode
  rw [hn _ fun c hc => (e.ascii c hc).1]
  constructor
  · rintro rfl; exact e
  · intro h
    clear e
    induction h with
    | nil => rfl
    | @one x g h h1 h2 h3 =>
      simp only [b64Encode]
      rw [b64Char_letter _ (by omega), b64Char_letter _ (by omega)]
      congr <;> omega
    | @two x y g h i h1 h2 h3 h4 =>
      simp only [b64Encode]
      rw [b64Char_letter _ (by omega), b64Char_letter _ (by omega), b64Char_letter _ (by omega)]
      congr <;> omega
    | @three x y z g h i j s t h1 h2 h3 h4 h5 _ ih =>
      simp only [b64Encode]
      rw [b64Char_letter _ (by omega), b64Char_letter _ (by omega), b64Char_letter _ (by omega), b64Char_letter _ (by omega), ih]
      congr <;> omega

example : base64Encode id (b "Hello, 世界!") = b "SGVsbG8sIOS4lueVjCE=" := by decide +kernel

/-- C23: `base64decode` succeeds exactly on texts that, without their line breaks, read as UTF-8; the result is
what they read as, normalised. -/
theorem C23_decode {nfc : Bytes → Bytes} {t r : Bytes} :
    base64Decode nfc t = .ok r ↔
      ∃ s, Reads s (t.filter fun c => c ≠ 10 ∧ c ≠ 13) ∧ utf8Valid s = true ∧ r = nfc s := by
  unfold base64Decode b64Decode
  constructor
  · intro h
    split at h
    · cases h
    · rename_i s hs
      split at h
      · rename_i hu; cases h; exact ⟨s, reads_decodeQ hs, hu, rfl⟩
      · cases h
  · rintro ⟨s, h1, h2, rfl⟩
    simp only [h1.decodeQ, h2, if_true]

/-- C23: `base64decode(base64encode(s))` is `s` for every string (cty strings are normalised). -/
theorem C23_inverse {nfc : Bytes → Bytes} (hn : FixesAscii nfc) {s : Bytes} (hu : utf8Valid s = true) (hs : nfc s = s) :
    base64Decode nfc (base64Encode nfc s) = .ok s := by
  have e := (C23_encode hn s _).1 rfl
  simp only [base64Decode, e.decode, hu, if_true, hs]

example : FixesAscii id ∧ utf8Valid (b "世界") = true := ⟨fun _ _ => rfl, by decide⟩
example : base64Decode id (b "SGVs\nbG8=") = .ok (b "Hello") := by decide +kernel

example : base64Decode id (b "SGVsbG8") = .error () ∧ base64Decode id (b "/w==") = .error () := by decide +kernel

/-- C23 is about the encoding of RFC 4648 only: of two different texts with the same bytes both are accepted. -/
example : base64Decode id (b "QQ==") = .ok (b "A") ∧ base64Decode id (b "QR==") = .ok (b "A") := by decide +kernel

theorem hexVal_upperhex : ∀ n < 16, hexVal (upperhex n) = some n := by decide +kernel
theorem upperhex_alnum : ∀ n < 16, Unreserved (upperhex n) ∧ upperhex n < 128 := by
  unfold Unreserved; decide +kernel

theorem shouldEscape_false {c : UInt8} (h : shouldEscape c = false) : Unreserved c := by
  unfold shouldEscape at h
  unfold Unreserved
  split at h
  · rename_i h1; rcases h1 with h1 | h1 | h1
    · exact .inr (.inl h1)
    · exact .inl h1
    · exact .inr (.inr (.inl h1))
  · split at h
    · rename_i h1; rcases h1 with h1 | h1 | h1 | h1
      · exact .inr (.inr (.inr (.inl h1)))
      · exact .inr (.inr (.inr (.inr (.inr (.inl h1)))))
      · exact .inr (.inr (.inr (.inr (.inl h1))))
      · exact .inr (.inr (.inr (.inr (.inr (.inr h1)))))
    · cases h

theorem Unreserved.not {c : UInt8} (h : Unreserved c) : c ≠ 37 ∧ c ≠ 43 ∧ c < 128 := by
  unfold Unreserved at h
  simp only [UInt8.le_iff_toNat_le, ← UInt8.toNat_inj, UInt8.lt_iff_toNat_lt, UInt8.reduceToNat, ne_eq] at h ⊢
  omega

theorem queryEscape_chars : ∀ s : Bytes, ∀ c ∈ queryEscape s, Unreserved c ∨ c = 37 ∨ c = 43
  | [], c, h => by cases h
  | x :: r, c, h => by
    simp only [queryEscape] at h
    split at h
    · rcases List.mem_cons.1 h with h | h
      · exact .inr (.inr h)
      · exact queryEscape_chars r c h
    · split at h
      · have := x.toNat_lt
        simp only [List.mem_cons] at h
        rcases h with h | h | h | h
        · exact .inr (.inl h)
        · exact .inl (h ▸ (upperhex_alnum _ (by omega)).1)
        · exact .inl (h ▸ (upperhex_alnum _ (by omega)).1)
        · exact queryEscape_chars r c h
      · rename_i h1
        rcases List.mem_cons.1 h with h | h
        · exact .inl (h ▸ shouldEscape_false (by simpa using h1))
        · exact queryEscape_chars r c h

theorem unescape_plain {c : UInt8} {r : Bytes} (h : c ≠ 37) (h' : c ≠ 43) :
    unescape (c :: r) = (unescape r).map (c :: ·) := by
  rw [unescape.eq_def]
  split
  · rename_i e; cases e
  · rename_i e; injection e with e1; exact absurd e1 h
  · rename_i e; cases e; simp [h, h']

theorem unescape_queryEscape : ∀ s : Bytes, unescape (queryEscape s) = some s
  | [] => rfl
  | x :: r => by
    have ih := unescape_queryEscape r
    simp only [queryEscape]
    split
    · rename_i h; subst h
      rw [unescape.eq_def]
      simp [ih]
    · split
      · have := x.toNat_lt
        simp only [unescape, hexVal_upperhex _ (show x.toNat / 16 < 16 by omega), hexVal_upperhex _ (show x.toNat % 16 < 16 by omega), ih,
          Option.map_some]
        rw [toUInt8_of (x := x) (by omega)]
      · rename_i h1
        have := (shouldEscape_false (by simpa using h1)).not
        rw [unescape_plain this.1 this.2.1, ih]; rfl

theorem urlEncode_eq {nfc : Bytes → Bytes} (hn : FixesAscii nfc) (s : Bytes) : urlEncode nfc s = queryEscape s := by
  refine hn _ fun c hc => ?_
  rcases queryEscape_chars s c hc with h | h | h
  · exact h.not.2.2
  · subst h; decide
  · subst h; decide

/-- C24: percent-decoding the result of `urlencode` gives back the argument. -/
theorem C24_inverse {nfc : Bytes → Bytes} (hn : FixesAscii nfc) (s : Bytes) : unescape (urlEncode nfc s) = some s := by
  rw [urlEncode_eq hn, unescape_queryEscape]

/-- C24: the result of `urlencode` consists of unreserved characters, `%` and `+`. -/
theorem C24_chars {nfc : Bytes → Bytes} (hn : FixesAscii nfc) (s : Bytes) :
    ∀ c ∈ urlEncode nfc s, Unreserved c ∨ c = 37 ∨ c = 43 := by
  rw [urlEncode_eq hn]; exact queryEscape_chars s

/-- C24: unreserved characters are not encoded. -/
theorem C24_plain {nfc : Bytes → Bytes} (hn : FixesAscii nfc) {s : Bytes} (h : ∀ c ∈ s, Unreserved c) :
    urlEncode nfc s = s := by
  rw [urlEncode_eq hn]
  induction s with
  | nil => rfl
  | cons c r ih =>
    have hc := h c (List.mem_cons_self ..)
    have h1 : shouldEscape c = false := by
      unfold Unreserved at hc
      unfold shouldEscape
      split
      · rfl
      · split
        · rfl
        · rename_i h1 h2
          exfalso
          rcases hc with hc | hc | hc | hc | hc | hc | hc <;> simp_all
    have h2 : c ≠ 32 := by
      rintro rfl
      unfold Unreserved at hc
      revert hc; decide
    simp only [queryEscape, if_neg h2, h1, Bool.false_eq_true, if_false, ih fun c hc => h c (List.mem_cons_of_mem _ hc)]

example : urlEncode id (b "a b+c/ü") = b "a+b%2Bc%2F%C3%BC" := by decide +kernel
example : unescape (b "a+b%2Bc%2F%C3%BC") = some (b "a b+c/ü") := by decide +kernel

end Verif.Funcs
