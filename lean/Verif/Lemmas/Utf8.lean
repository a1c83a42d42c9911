import Verif.Model.Go
import Verif.Spec.Utf8
/-! `utf8Valid` decides `IsUtf8`. -/
namespace Verif

theorem IsUtf8.nil : IsUtf8 [] := ⟨[], by simp, rfl⟩

theorem IsUtf8.cons {n : Nat} {s : List UInt8} (h : IsScalar n) (hs : IsUtf8 s) :
    IsUtf8 (utf8Encode n ++ s) := by
  obtain ⟨cs, h1, rfl⟩ := hs
  exact ⟨n :: cs, by simpa using ⟨h, h1⟩, by simp⟩

theorem u8_lt {x y : UInt8} : x < y ↔ x.toNat < y.toNat := UInt8.lt_iff_toNat_lt
theorem u8_le {x y : UInt8} : x ≤ y ↔ x.toNat ≤ y.toNat := UInt8.le_iff_toNat_le
theorem u8_eq {x y : UInt8} : x = y ↔ x.toNat = y.toNat := UInt8.toNat_inj.symm

theorem u8_ofNat_eq {n : Nat} {c : UInt8} (h : c.toNat = n) : UInt8.ofNat n = c := by
  subst h; exact UInt8.ofNat_toNat

theorem utf8Cont_iff {lo hi c : UInt8} :
    utf8Cont lo hi c = true ↔ lo.toNat ≤ c.toNat ∧ c.toNat ≤ hi.toNat := by
  simp [utf8Cont, u8_le]

theorem isUtf8_of_valid : ∀ s : Bytes, utf8Valid s = true → IsUtf8 s
  | [], _ => IsUtf8.nil
  | c0 :: rest, h => by
    have hc0 := c0.toNat_lt
    unfold utf8Valid at h
    split at h
    · rename_i h0
      simp [u8_lt] at h0
      have := IsUtf8.cons (n := c0.toNat) (Or.inl (by omega)) (isUtf8_of_valid rest h)
      simpa [utf8Encode, h0] using this
    · rename_i h0
      simp [u8_lt] at h0
      split at h
      · rename_i h1
        simp [utf8Cont_iff] at h1
        split at h
        · rename_i c1 r
          simp only [Bool.and_eq_true, utf8Cont_iff] at h
          obtain ⟨h2, h3⟩ := h
          simp at h2
          have := IsUtf8.cons (n := (c0.toNat - 0xC0) * 64 + (c1.toNat - 0x80))
            (Or.inl (by omega)) (isUtf8_of_valid r h3)
          rw [utf8Encode, if_neg (by omega), if_pos (by omega)] at this
          rw [u8_ofNat_eq (c := c0) (by omega), u8_ofNat_eq (c := c1) (by omega)] at this
          exact this
        · simp at h
      · split at h
        · rename_i h1 h2
          simp [utf8Cont_iff] at h2
          split at h
          · rename_i c1 c2 r
            simp only [Bool.and_eq_true, utf8Cont_iff] at h
            obtain ⟨⟨h3, h4⟩, h5⟩ := h
            simp at h4
            have e1 : (0xE0 : UInt8).toNat = 224 := rfl
            have e2 : (0xED : UInt8).toNat = 237 := rfl
            have h3' : (c0.toNat = 224 → 160 ≤ c1.toNat) ∧ 128 ≤ c1.toNat ∧
                (c0.toNat = 237 → c1.toNat ≤ 159) ∧ c1.toNat ≤ 191 := by
              simp only [u8_eq, e1, e2] at h3
              split at h3 <;> split at h3 <;> simp at h3 <;> omega
            have := IsUtf8.cons
              (n := (c0.toNat - 0xE0) * 4096 + (c1.toNat - 0x80) * 64 + (c2.toNat - 0x80))
              (by unfold IsScalar; omega) (isUtf8_of_valid r h5)
            rw [utf8Encode, if_neg (by omega), if_neg (by omega), if_pos (by omega)] at this
            rw [u8_ofNat_eq (c := c0) (by omega), u8_ofNat_eq (c := c1) (by omega),
              u8_ofNat_eq (c := c2) (by omega)] at this
            exact this
          · simp at h
        · split at h
          · rename_i h1 h2 h6
            simp [utf8Cont_iff] at h6
            split at h
            · rename_i c1 c2 c3 r
              simp only [Bool.and_eq_true, utf8Cont_iff] at h
              obtain ⟨⟨⟨h3, h4⟩, h7⟩, h5⟩ := h
              simp at h4 h7
              have e1 : (0xF0 : UInt8).toNat = 240 := rfl
              have e2 : (0xF4 : UInt8).toNat = 244 := rfl
              have h3' : (c0.toNat = 240 → 144 ≤ c1.toNat) ∧ 128 ≤ c1.toNat ∧
                  (c0.toNat = 244 → c1.toNat ≤ 143) ∧ c1.toNat ≤ 191 := by
                simp only [u8_eq, e1, e2] at h3
                split at h3 <;> split at h3 <;> simp at h3 <;> omega
              have := IsUtf8.cons
                (n := (c0.toNat - 0xF0) * 262144 + (c1.toNat - 0x80) * 4096
                  + (c2.toNat - 0x80) * 64 + (c3.toNat - 0x80))
                (by unfold IsScalar; omega) (isUtf8_of_valid r h5)
              rw [utf8Encode, if_neg (by omega), if_neg (by omega), if_neg (by omega)] at this
              rw [u8_ofNat_eq (c := c0) (by omega), u8_ofNat_eq (c := c1) (by omega),
                u8_ofNat_eq (c := c2) (by omega), u8_ofNat_eq (c := c3) (by omega)] at this
              exact this
            · simp at h
          · simp at h

theorem u8_toNat_ofNat {n : Nat} (h : n < 256) : (UInt8.ofNat n).toNat = n := by
  simp; omega

theorem utf8Valid_encode (n : Nat) (hn : IsScalar n) (s : Bytes) (hs : utf8Valid s = true) :
    utf8Valid (utf8Encode n ++ s) = true := by
  unfold IsScalar at hn
  have k1 : (0x80 : UInt8).toNat = 128 := rfl
  have k2 : (0xC2 : UInt8).toNat = 194 := rfl
  have k3 : (0xDF : UInt8).toNat = 223 := rfl
  have k4 : (0xE0 : UInt8).toNat = 224 := rfl
  have k5 : (0xEF : UInt8).toNat = 239 := rfl
  have k6 : (0xED : UInt8).toNat = 237 := rfl
  have k7 : (0xF0 : UInt8).toNat = 240 := rfl
  have k8 : (0xF4 : UInt8).toNat = 244 := rfl
  have k9 : (0xBF : UInt8).toNat = 191 := rfl
  have k10 : (0xA0 : UInt8).toNat = 160 := rfl
  have k11 : (0x9F : UInt8).toNat = 159 := rfl
  have k12 : (0x90 : UInt8).toNat = 144 := rfl
  have k13 : (0x8F : UInt8).toNat = 143 := rfl
  unfold utf8Encode
  split
  · have e := u8_toNat_ofNat (n := n) (by omega)
    simp only [List.cons_append, List.nil_append]
    unfold utf8Valid
    rw [if_pos (by rw [u8_lt, e, k1]; omega)]
    exact hs
  · split
    · have e0 := u8_toNat_ofNat (n := 0xC0 + n / 64) (by omega)
      have e1 := u8_toNat_ofNat (n := 0x80 + n % 64) (by omega)
      simp only [List.cons_append, List.nil_append]
      unfold utf8Valid
      rw [if_neg (by rw [u8_lt, e0, k1]; omega),
        if_pos (by rw [utf8Cont_iff, e0, k2, k3]; omega)]
      simp only [Bool.and_eq_true, utf8Cont_iff, e1, k1, k9, hs]
      exact ⟨by omega, trivial⟩
    · split
      · have e0 := u8_toNat_ofNat (n := 0xE0 + n / 4096) (by omega)
        have e1 := u8_toNat_ofNat (n := 0x80 + n / 64 % 64) (by omega)
        have e2 := u8_toNat_ofNat (n := 0x80 + n % 64) (by omega)
        simp only [List.cons_append, List.nil_append]
        unfold utf8Valid
        rw [if_neg (by rw [u8_lt, e0, k1]; omega),
          if_neg (by rw [utf8Cont_iff, e0, k2, k3]; omega),
          if_pos (by rw [utf8Cont_iff, e0, k4, k5]; omega)]
        simp only [Bool.and_eq_true, utf8Cont_iff, e1, e2, hs, u8_eq, e0, k4, k6]
        refine ⟨⟨?_, by rw [k1, k9]; omega⟩, trivial⟩
        split <;> split <;> simp only [k1, k9, k10, k11] <;> omega
      · have e0 := u8_toNat_ofNat (n := 0xF0 + n / 262144) (by omega)
        have e1 := u8_toNat_ofNat (n := 0x80 + n / 4096 % 64) (by omega)
        have e2 := u8_toNat_ofNat (n := 0x80 + n / 64 % 64) (by omega)
        have e3 := u8_toNat_ofNat (n := 0x80 + n % 64) (by omega)
        simp only [List.cons_append, List.nil_append]
        unfold utf8Valid
        rw [if_neg (by rw [u8_lt, e0, k1]; omega),
          if_neg (by rw [utf8Cont_iff, e0, k2, k3]; omega),
          if_neg (by rw [utf8Cont_iff, e0, k4, k5]; omega),
          if_pos (by rw [utf8Cont_iff, e0, k7, k8]; omega)]
        simp only [Bool.and_eq_true, utf8Cont_iff, e1, e2, e3, hs, u8_eq, e0, k7, k8]
        refine ⟨⟨⟨?_, by rw [k1, k9]; omega⟩, by rw [k1, k9]; omega⟩, trivial⟩
        split <;> split <;> simp only [k1, k9, k12, k13] <;> omega

theorem valid_of_isUtf8 {s : Bytes} (h : IsUtf8 s) : utf8Valid s = true := by
  obtain ⟨cs, h1, rfl⟩ := h
  induction cs with
  | nil => rfl
  | cons c cs ih =>
    simp only [List.flatMap_cons]
    exact utf8Valid_encode c (h1 c (by simp)) _ (ih (fun x hx => h1 x (by simp [hx])))

/-- The modelled `utf8.ValidString` decides the specification of UTF-8. -/
theorem utf8Valid_iff (s : Bytes) : utf8Valid s = true ↔ IsUtf8 s :=
  ⟨isUtf8_of_valid s, valid_of_isUtf8⟩

end Verif
