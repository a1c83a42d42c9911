import Verif.Model.Ident
import Verif.Spec.Ident
import Mathlib.Data.List.Basic
import Mathlib.Tactic.IntervalCases
/-! Lemmas on texts of UUIDs. -/
namespace Verif.Ident

theorem isHex_xvalue {c : UInt8} {v : Nat} : IsHex c v ↔ ∃ x, xvalue c = some x ∧ x.toNat = v := by
  have hlt : c.toNat < 256 := UInt8.toNat_lt c
  unfold IsHex xvalue
  simp only [UInt8.le_iff_toNat_le, UInt8.reduceToNat]
  split
  · rename_i h
    simp only [Option.some.injEq, exists_eq_left', UInt8.toNat_sub, UInt8.reduceToNat]
    omega
  · split
    · simp only [Option.some.injEq, exists_eq_left', UInt8.toNat_sub, UInt8.reduceToNat]
      omega
    · split
      · simp only [Option.some.injEq, exists_eq_left', UInt8.toNat_sub, UInt8.reduceToNat]
        omega
      · simp
        omega

theorem xvalue_lt {c x : UInt8} (h : xvalue c = some x) : x.toNat < 16 := by
  have := isHex_xvalue.2 ⟨x, h, rfl⟩
  unfold IsHex at this
  omega

theorem xtob_iff {c d x : UInt8} : xtob c d = some x ↔ ∃ v w, IsHex c v ∧ IsHex d w ∧ x.toNat = 16 * v + w := by
  unfold xtob
  constructor
  · intro h
    split at h
    · rename_i y z hy hz
      have h1 := xvalue_lt hy
      have h2 := xvalue_lt hz
      refine ⟨y.toNat, z.toNat, isHex_xvalue.2 ⟨y, hy, rfl⟩, isHex_xvalue.2 ⟨z, hz, rfl⟩, ?_⟩
      injection h with h
      rw [← h]
      simp only [UInt8.toNat_add, UInt8.toNat_mul, UInt8.reduceToNat]
      omega
    · cases h
  · rintro ⟨v, w, hv, hw, hx⟩
    obtain ⟨y, hy, rfl⟩ := isHex_xvalue.1 hv
    obtain ⟨z, hz, rfl⟩ := isHex_xvalue.1 hw
    have h1 := xvalue_lt hy
    have h2 := xvalue_lt hz
    rw [hy, hz]
    simp only [Option.some.injEq]
    apply UInt8.toNat_inj.1
    rw [hx]
    simp only [UInt8.toNat_add, UInt8.toNat_mul, UInt8.reduceToNat]
    omega

theorem hexOf_nil {s : Bytes} : HexOf [] s ↔ s = [] :=
  ⟨fun h => by cases h; rfl, fun h => h ▸ .nil⟩

theorem hexOf_cons {x : UInt8} {u s : Bytes} :
    HexOf (x :: u) s ↔ ∃ c d r, s = c :: d :: r ∧ xtob c d = some x ∧ HexOf u r := by
  constructor
  · intro h
    cases h with
    | cons h1 h2 h3 h4 => exact ⟨_, _, _, rfl, xtob_iff.2 ⟨_, _, h1, h2, h3⟩, h4⟩
  · rintro ⟨c, d, r, rfl, h1, h2⟩
    obtain ⟨v, w, hv, hw, hx⟩ := xtob_iff.1 h1
    exact .cons hv hw hx h2

theorem hexOf_length {u s : Bytes} (h : HexOf u s) : s.length = 2 * u.length := by
  induction h with
  | nil => rfl
  | cons _ _ _ _ ih => simp only [List.length_cons, ih]; omega

theorem undashed_iff {s : Bytes} : ∀ {u : Bytes}, undashed s = some u ↔ HexOf u s := by
  fun_induction undashed s with
  | case1 =>
    intro u
    simp only [Option.some.injEq]
    constructor
    · rintro rfl; exact .nil
    · intro h; cases h; rfl
  | case2 c d s h =>
    intro u
    simp only [reduceCtorEq, false_iff]
    intro hu
    cases hu with
    | cons h1 h2 h3 _ => rw [xtob_iff.2 ⟨_, _, h1, h2, h3⟩] at h; cases h
  | case3 c d s x h ih =>
    intro u
    simp only [Option.map_eq_some_iff]
    constructor
    · rintro ⟨a, ha, rfl⟩
      exact hexOf_cons.2 ⟨c, d, s, rfl, h, ih.1 ha⟩
    · intro hu
      cases hu with
      | cons h1 h2 h3 h4 =>
        have := xtob_iff.2 ⟨_, _, h1, h2, h3⟩
        rw [h] at this
        injection this with this
        exact ⟨_, ih.2 h4, by rw [this]⟩
  | case4 s h1 h2 =>
    intro u
    simp only [reduceCtorEq, false_iff]
    intro hu
    cases hu with
    | nil => exact h1 rfl
    | cons => exact h2 _ _ _ rfl

theorem cons_of {n : Nat} {s : Bytes} (h : n + 1 ≤ s.length) : ∃ c r, s = c :: r ∧ n ≤ r.length := by
  cases s with
  | nil => simp at h
  | cons c r => exact ⟨c, r, rfl, by simpa using h⟩

theorem split36 {s : Bytes} (h : 36 ≤ s.length) :
    ∃ c0 c1 c2 c3 c4 c5 c6 c7 c8 c9 c10 c11 c12 c13 c14 c15 c16 c17 c18 c19 c20 c21 c22 c23 c24 c25 c26 c27 c28 c29 c30 c31 c32 c33 c34 c35 r, s = c0 :: c1 :: c2 :: c3 :: c4 :: c5 :: c6 :: c7 :: c8 :: c9 :: c10 :: c11 :: c12 :: c13 :: c14 :: c15 :: c16 :: c17 :: c18 :: c19 :: c20 :: c21 :: c22 :: c23 :: c24 :: c25 :: c26 :: c27 :: c28 :: c29 :: c30 :: c31 :: c32 :: c33 :: c34 :: c35 :: r := by
  obtain ⟨c0, s0, rfl, h0⟩ := cons_of h
  obtain ⟨c1, s1, rfl, h1⟩ := cons_of h0
  obtain ⟨c2, s2, rfl, h2⟩ := cons_of h1
  obtain ⟨c3, s3, rfl, h3⟩ := cons_of h2
  obtain ⟨c4, s4, rfl, h4⟩ := cons_of h3
  obtain ⟨c5, s5, rfl, h5⟩ := cons_of h4
  obtain ⟨c6, s6, rfl, h6⟩ := cons_of h5
  obtain ⟨c7, s7, rfl, h7⟩ := cons_of h6
  obtain ⟨c8, s8, rfl, h8⟩ := cons_of h7
  obtain ⟨c9, s9, rfl, h9⟩ := cons_of h8
  obtain ⟨c10, s10, rfl, h10⟩ := cons_of h9
  obtain ⟨c11, s11, rfl, h11⟩ := cons_of h10
  obtain ⟨c12, s12, rfl, h12⟩ := cons_of h11
  obtain ⟨c13, s13, rfl, h13⟩ := cons_of h12
  obtain ⟨c14, s14, rfl, h14⟩ := cons_of h13
  obtain ⟨c15, s15, rfl, h15⟩ := cons_of h14
  obtain ⟨c16, s16, rfl, h16⟩ := cons_of h15
  obtain ⟨c17, s17, rfl, h17⟩ := cons_of h16
  obtain ⟨c18, s18, rfl, h18⟩ := cons_of h17
  obtain ⟨c19, s19, rfl, h19⟩ := cons_of h18
  obtain ⟨c20, s20, rfl, h20⟩ := cons_of h19
  obtain ⟨c21, s21, rfl, h21⟩ := cons_of h20
  obtain ⟨c22, s22, rfl, h22⟩ := cons_of h21
  obtain ⟨c23, s23, rfl, h23⟩ := cons_of h22
  obtain ⟨c24, s24, rfl, h24⟩ := cons_of h23
  obtain ⟨c25, s25, rfl, h25⟩ := cons_of h24
  obtain ⟨c26, s26, rfl, h26⟩ := cons_of h25
  obtain ⟨c27, s27, rfl, h27⟩ := cons_of h26
  obtain ⟨c28, s28, rfl, h28⟩ := cons_of h27
  obtain ⟨c29, s29, rfl, h29⟩ := cons_of h28
  obtain ⟨c30, s30, rfl, h30⟩ := cons_of h29
  obtain ⟨c31, s31, rfl, h31⟩ := cons_of h30
  obtain ⟨c32, s32, rfl, h32⟩ := cons_of h31
  obtain ⟨c33, s33, rfl, h33⟩ := cons_of h32
  obtain ⟨c34, s34, rfl, h34⟩ := cons_of h33
  obtain ⟨c35, s35, rfl, h35⟩ := cons_of h34
  exact ⟨_, _, _, _, _, _, _, _, _, _, _, _, _, _, _, _, _, _, _, _, _, _, _, _, _, _, _, _, _, _, _, _, _, _, _, _, s35, rfl⟩

theorem mapM_nil' {f : Nat → Option UInt8} {u : Bytes} : ([] : List Nat).mapM f = some u ↔ u = [] := by
  simp [eq_comm]

theorem mapM_cons' {f : Nat → Option UInt8} {a : Nat} {l : List Nat} {u : Bytes} :
    (a :: l).mapM f = some u ↔ ∃ x r, u = x :: r ∧ f a = some x ∧ l.mapM f = some r := by
  rw [List.mapM_cons]
  cases h : f a with
  | none => simp
  | some x =>
    cases h2 : l.mapM f with
    | none => simp
    | some r => simp [eq_comm]

theorem hex2 {u s : Bytes} : u.length = 2 ∧ HexOf u s ↔ ∃ x0 x1 c0 c1 c2 c3, u = [x0, x1] ∧ s = [c0, c1, c2, c3] ∧
    xtob c0 c1 = some x0 ∧ xtob c2 c3 = some x1 := by
  constructor
  · rintro ⟨h, hu⟩
    match u, h with
    | [x0, x1], _ =>
      obtain ⟨c0, c1, r0, rfl, e0, hu⟩ := hexOf_cons.1 hu
      obtain ⟨c2, c3, r1, rfl, e1, hu⟩ := hexOf_cons.1 hu
      obtain rfl := hexOf_nil.1 hu
      exact ⟨_, _, _, _, _, _, rfl, rfl, e0, e1⟩
  · rintro ⟨x0, x1, c0, c1, c2, c3, rfl, rfl, e0, e1⟩
    exact ⟨rfl, hexOf_cons.2 ⟨_, _, _, rfl, e0, hexOf_cons.2 ⟨_, _, _, rfl, e1, .nil⟩⟩⟩

theorem hex4 {u s : Bytes} : u.length = 4 ∧ HexOf u s ↔ ∃ x0 x1 x2 x3 c0 c1 c2 c3 c4 c5 c6 c7, u = [x0, x1, x2, x3] ∧ s = [c0, c1, c2, c3, c4, c5, c6, c7] ∧
    xtob c0 c1 = some x0 ∧ xtob c2 c3 = some x1 ∧ xtob c4 c5 = some x2 ∧ xtob c6 c7 = some x3 := by
  constructor
  · rintro ⟨h, hu⟩
    match u, h with
    | [x0, x1, x2, x3], _ =>
      obtain ⟨c0, c1, r0, rfl, e0, hu⟩ := hexOf_cons.1 hu
      obtain ⟨c2, c3, r1, rfl, e1, hu⟩ := hexOf_cons.1 hu
      obtain ⟨c4, c5, r2, rfl, e2, hu⟩ := hexOf_cons.1 hu
      obtain ⟨c6, c7, r3, rfl, e3, hu⟩ := hexOf_cons.1 hu
      obtain rfl := hexOf_nil.1 hu
      exact ⟨_, _, _, _, _, _, _, _, _, _, _, _, rfl, rfl, e0, e1, e2, e3⟩
  · rintro ⟨x0, x1, x2, x3, c0, c1, c2, c3, c4, c5, c6, c7, rfl, rfl, e0, e1, e2, e3⟩
    exact ⟨rfl, hexOf_cons.2 ⟨_, _, _, rfl, e0, hexOf_cons.2 ⟨_, _, _, rfl, e1, hexOf_cons.2 ⟨_, _, _, rfl, e2, hexOf_cons.2 ⟨_, _, _, rfl, e3, .nil⟩⟩⟩⟩⟩

theorem hex6 {u s : Bytes} : u.length = 6 ∧ HexOf u s ↔ ∃ x0 x1 x2 x3 x4 x5 c0 c1 c2 c3 c4 c5 c6 c7 c8 c9 c10 c11, u = [x0, x1, x2, x3, x4, x5] ∧ s = [c0, c1, c2, c3, c4, c5, c6, c7, c8, c9, c10, c11] ∧
    xtob c0 c1 = some x0 ∧ xtob c2 c3 = some x1 ∧ xtob c4 c5 = some x2 ∧ xtob c6 c7 = some x3 ∧ xtob c8 c9 = some x4 ∧ xtob c10 c11 = some x5 := by
  constructor
  · rintro ⟨h, hu⟩
    match u, h with
    | [x0, x1, x2, x3, x4, x5], _ =>
      obtain ⟨c0, c1, r0, rfl, e0, hu⟩ := hexOf_cons.1 hu
      obtain ⟨c2, c3, r1, rfl, e1, hu⟩ := hexOf_cons.1 hu
      obtain ⟨c4, c5, r2, rfl, e2, hu⟩ := hexOf_cons.1 hu
      obtain ⟨c6, c7, r3, rfl, e3, hu⟩ := hexOf_cons.1 hu
      obtain ⟨c8, c9, r4, rfl, e4, hu⟩ := hexOf_cons.1 hu
      obtain ⟨c10, c11, r5, rfl, e5, hu⟩ := hexOf_cons.1 hu
      obtain rfl := hexOf_nil.1 hu
      exact ⟨_, _, _, _, _, _, _, _, _, _, _, _, _, _, _, _, _, _, rfl, rfl, e0, e1, e2, e3, e4, e5⟩
  · rintro ⟨x0, x1, x2, x3, x4, x5, c0, c1, c2, c3, c4, c5, c6, c7, c8, c9, c10, c11, rfl, rfl, e0, e1, e2, e3, e4, e5⟩
    exact ⟨rfl, hexOf_cons.2 ⟨_, _, _, rfl, e0, hexOf_cons.2 ⟨_, _, _, rfl, e1, hexOf_cons.2 ⟨_, _, _, rfl, e2, hexOf_cons.2 ⟨_, _, _, rfl, e3, hexOf_cons.2 ⟨_, _, _, rfl, e4, hexOf_cons.2 ⟨_, _, _, rfl, e5, .nil⟩⟩⟩⟩⟩⟩⟩

theorem dashed_some {u s : Bytes} (h : 36 ≤ s.length) : dashed s = some u ↔ Dashed u (s.take 36) := by
  obtain ⟨c0, c1, c2, c3, c4, c5, c6, c7, c8, c9, c10, c11, c12, c13, c14, c15, c16, c17, c18, c19, c20, c21, c22, c23, c24, c25, c26, c27, c28, c29, c30, c31, c32, c33, c34, c35, r, rfl⟩ := split36 h
  constructor
  · intro hd
    unfold dashed at hd
    split at hd
    · cases hd
    · rename_i hdash
      simp only [not_or, Decidable.not_not, List.getD_cons_succ, List.getD_cons_zero] at hdash
      obtain ⟨rfl, rfl, rfl, rfl⟩ := hdash
      unfold offsets at hd
      obtain ⟨x0, u0, rfl, e0, hd⟩ := mapM_cons'.1 hd
      obtain ⟨x1, u1, rfl, e1, hd⟩ := mapM_cons'.1 hd
      obtain ⟨x2, u2, rfl, e2, hd⟩ := mapM_cons'.1 hd
      obtain ⟨x3, u3, rfl, e3, hd⟩ := mapM_cons'.1 hd
      obtain ⟨x4, u4, rfl, e4, hd⟩ := mapM_cons'.1 hd
      obtain ⟨x5, u5, rfl, e5, hd⟩ := mapM_cons'.1 hd
      obtain ⟨x6, u6, rfl, e6, hd⟩ := mapM_cons'.1 hd
      obtain ⟨x7, u7, rfl, e7, hd⟩ := mapM_cons'.1 hd
      obtain ⟨x8, u8, rfl, e8, hd⟩ := mapM_cons'.1 hd
      obtain ⟨x9, u9, rfl, e9, hd⟩ := mapM_cons'.1 hd
      obtain ⟨x10, u10, rfl, e10, hd⟩ := mapM_cons'.1 hd
      obtain ⟨x11, u11, rfl, e11, hd⟩ := mapM_cons'.1 hd
      obtain ⟨x12, u12, rfl, e12, hd⟩ := mapM_cons'.1 hd
      obtain ⟨x13, u13, rfl, e13, hd⟩ := mapM_cons'.1 hd
      obtain ⟨x14, u14, rfl, e14, hd⟩ := mapM_cons'.1 hd
      obtain ⟨x15, u15, rfl, e15, hd⟩ := mapM_cons'.1 hd
      obtain rfl := mapM_nil'.1 hd
      simp only [Nat.reduceAdd, Nat.zero_add, List.getD_cons_succ, List.getD_cons_zero] at e0 e1 e2 e3 e4 e5 e6 e7 e8 e9 e10 e11 e12 e13 e14 e15
      obtain ⟨l0, g0⟩ := hex4.2 ⟨_, _, _, _, _, _, _, _, _, _, _, _, rfl, rfl, e0, e1, e2, e3⟩
      obtain ⟨l1, g1⟩ := hex2.2 ⟨_, _, _, _, _, _, rfl, rfl, e4, e5⟩
      obtain ⟨l2, g2⟩ := hex2.2 ⟨_, _, _, _, _, _, rfl, rfl, e6, e7⟩
      obtain ⟨l3, g3⟩ := hex2.2 ⟨_, _, _, _, _, _, rfl, rfl, e8, e9⟩
      obtain ⟨l4, g4⟩ := hex6.2 ⟨_, _, _, _, _, _, _, _, _, _, _, _, _, _, _, _, _, _, rfl, rfl, e10, e11, e12, e13, e14, e15⟩
      exact ⟨_, _, _, _, _, _, _, _, _, _, rfl, l0, l1, l2, l3, l4, rfl, g0, g1, g2, g3, g4⟩
  · rintro ⟨u1, u2, u3, u4, u5, s1, s2, s3, s4, s5, rfl, l0, l1, l2, l3, l4, hs, g0, g1, g2, g3, g4⟩
    obtain ⟨y0, y1, y2, y3, d0, d1, d2, d3, d4, d5, d6, d7, rfl, rfl, e0, e1, e2, e3⟩ := hex4.1 ⟨l0, g0⟩
    obtain ⟨y4, y5, d9, d10, d11, d12, rfl, rfl, e4, e5⟩ := hex2.1 ⟨l1, g1⟩
    obtain ⟨y6, y7, d14, d15, d16, d17, rfl, rfl, e6, e7⟩ := hex2.1 ⟨l2, g2⟩
    obtain ⟨y8, y9, d19, d20, d21, d22, rfl, rfl, e8, e9⟩ := hex2.1 ⟨l3, g3⟩
    obtain ⟨y10, y11, y12, y13, y14, y15, d24, d25, d26, d27, d28, d29, d30, d31, d32, d33, d34, d35, rfl, rfl, e10, e11, e12, e13, e14, e15⟩ := hex6.1 ⟨l4, g4⟩
    simp only [List.take_succ_cons, List.take_zero, List.cons_append, List.nil_append, List.cons.injEq, and_true] at hs
    obtain ⟨rfl, rfl, rfl, rfl, rfl, rfl, rfl, rfl, rfl, rfl, rfl, rfl, rfl, rfl, rfl, rfl, rfl, rfl, rfl, rfl, rfl, rfl, rfl, rfl, rfl, rfl, rfl, rfl, rfl, rfl, rfl, rfl, rfl, rfl, rfl, rfl⟩ := hs
    unfold dashed offsets
    rw [if_neg (by simp only [List.getD_cons_succ, List.getD_cons_zero, ne_eq, not_true_eq_false, or_self, not_false_eq_true])]
    simp only [List.cons_append, List.nil_append]
    exact mapM_cons'.2 ⟨_, _, rfl, e0, mapM_cons'.2 ⟨_, _, rfl, e1, mapM_cons'.2 ⟨_, _, rfl, e2, mapM_cons'.2 ⟨_, _, rfl, e3, mapM_cons'.2 ⟨_, _, rfl, e4, mapM_cons'.2 ⟨_, _, rfl, e5, mapM_cons'.2 ⟨_, _, rfl, e6, mapM_cons'.2 ⟨_, _, rfl, e7, mapM_cons'.2 ⟨_, _, rfl, e8, mapM_cons'.2 ⟨_, _, rfl, e9, mapM_cons'.2 ⟨_, _, rfl, e10, mapM_cons'.2 ⟨_, _, rfl, e11, mapM_cons'.2 ⟨_, _, rfl, e12, mapM_cons'.2 ⟨_, _, rfl, e13, mapM_cons'.2 ⟨_, _, rfl, e14, mapM_cons'.2 ⟨_, _, rfl, e15, mapM_nil'.2 rfl⟩⟩⟩⟩⟩⟩⟩⟩⟩⟩⟩⟩⟩⟩⟩⟩

theorem isHex_digit {d : UInt8} (h : d.toNat < 16) : IsHex (hexDigit d) d.toNat := by
  unfold IsHex hexDigit
  split
  · rename_i h1
    rw [UInt8.lt_iff_toNat_lt] at h1
    simp only [UInt8.toNat_add, UInt8.reduceToNat] at *
    omega
  · rename_i h1
    rw [UInt8.lt_iff_toNat_lt] at h1
    simp only [UInt8.toNat_add, UInt8.reduceToNat] at *
    omega

theorem hexOf_hexEnc (u : Bytes) : HexOf u (hexEnc u) := by
  induction u with
  | nil => exact .nil
  | cons x u ih =>
    have hx : x.toNat < 256 := UInt8.toNat_lt x
    have e1 : (x / 16).toNat = x.toNat / 16 := by simp only [UInt8.toNat_div, UInt8.reduceToNat]
    have e2 : (x % 16).toNat = x.toNat % 16 := by simp only [UInt8.toNat_mod, UInt8.reduceToNat]
    refine .cons (isHex_digit (by omega)) (isHex_digit (by omega)) ?_ ih
    omega

theorem text_dashed {u : Bytes} (h : u.length = 16) : Dashed u (text u) := by
  refine ⟨u.take 4, (u.drop 4).take 2, (u.drop 6).take 2, (u.drop 8).take 2, (u.drop 10).take 6, _, _, _, _, _, ?_,
    by simp [h], by simp [h], by simp [h], by simp [h], by simp [h], ?_,
    hexOf_hexEnc _, hexOf_hexEnc _, hexOf_hexEnc _, hexOf_hexEnc _, hexOf_hexEnc _⟩
  · match u, h with
    | [_, _, _, _, _, _, _, _, _, _, _, _, _, _, _, _], _ => rfl
  · unfold text
    simp only [List.append_assoc, List.cons_append, List.nil_append]

theorem dashed_length {u s : Bytes} (h : Dashed u s) : s.length = 36 ∧ u.length = 16 := by
  obtain ⟨u1, u2, u3, u4, u5, s1, s2, s3, s4, s5, rfl, l0, l1, l2, l3, l4, rfl, g0, g1, g2, g3, g4⟩ := h
  have := hexOf_length g0
  have := hexOf_length g1
  have := hexOf_length g2
  have := hexOf_length g3
  have := hexOf_length g4
  simp only [List.length_append, List.length_cons, List.length_nil]
  omega

theorem dashed_iff {u s : Bytes} (h : s.length = 36) : dashed s = some u ↔ Dashed u s := by
  rw [dashed_some (by omega), List.take_of_length_le (by omega)]

theorem dashed_unique {u v s : Bytes} (h : Dashed u s) (h' : Dashed v s) : u = v := by
  have e := (dashed_iff (dashed_length h).1).2 h
  rw [(dashed_iff (dashed_length h).1).2 h'] at e
  injection e with e
  exact e.symm

theorem text_inj {u v : Bytes} (hu : u.length = 16) (hv : v.length = 16) : text u = text v ↔ u = v :=
  ⟨fun h => dashed_unique (text_dashed hu) (h ▸ text_dashed hv), fun h => h ▸ rfl⟩

theorem hexOf_ascii {u s : Bytes} (h : HexOf u s) : ∀ c ∈ s, c < 128 := by
  induction h with
  | nil => simp
  | cons h1 h2 _ _ ih =>
    intro c hc
    rw [UInt8.lt_iff_toNat_lt]
    simp only [List.mem_cons] at hc
    unfold IsHex at h1 h2
    simp only [UInt8.reduceToNat]
    rcases hc with rfl | rfl | hc
    · omega
    · omega
    · have := ih c hc
      rw [UInt8.lt_iff_toNat_lt] at this
      exact this

theorem dashed_ascii {u s : Bytes} (h : Dashed u s) : ∀ c ∈ s, c < 128 := by
  obtain ⟨u1, u2, u3, u4, u5, s1, s2, s3, s4, s5, rfl, l0, l1, l2, l3, l4, rfl, g0, g1, g2, g3, g4⟩ := h
  intro c hc
  simp only [List.mem_append, List.mem_singleton] at hc
  have h45 : (45 : UInt8) < 128 := by decide
  rcases hc with (((((((hc | rfl) | hc) | rfl) | hc) | rfl) | hc) | rfl) | hc
  · exact hexOf_ascii g0 c hc
  · exact h45
  · exact hexOf_ascii g1 c hc
  · exact h45
  · exact hexOf_ascii g2 c hc
  · exact h45
  · exact hexOf_ascii g3 c hc
  · exact h45
  · exact hexOf_ascii g4 c hc

theorem lower_eq {c : UInt8} {n : UInt8} (h : 97 ≤ n.toNat) (h' : n.toNat ≤ 122) : lower c = n ↔ c = n ∨ c = n - 32 := by
  unfold lower
  have hc := UInt8.toNat_lt c
  simp only [UInt8.le_iff_toNat_le, ← UInt8.toNat_inj, UInt8.toNat_sub, UInt8.reduceToNat]
  split
  · simp only [UInt8.toNat_add, UInt8.reduceToNat]
    omega
  · omega

theorem lower_colon {c : UInt8} : lower c = 58 ↔ c = 58 := by
  unfold lower
  have hc := UInt8.toNat_lt c
  simp only [UInt8.le_iff_toNat_le, ← UInt8.toNat_inj, UInt8.reduceToNat]
  split
  · simp only [UInt8.toNat_add, UInt8.reduceToNat]
    omega
  · omega

theorem isUrn_iff {p : Bytes} : IsUrn p ↔ p.map lower = b "urn:uuid:" := by
  have e1 : b "urn:uuid:" = [117, 114, 110, 58, 117, 117, 105, 100, 58] := by decide +kernel
  have e2 : b "URN:UUID:" = [85, 82, 78, 58, 85, 85, 73, 68, 58] := by decide +kernel
  unfold IsUrn
  rw [e1, e2]
  by_cases hl : p.length = 9
  · match p, hl with
    | [c0, c1, c2, c3, c4, c5, c6, c7, c8], _ =>
      have hall : ∀ P : Nat → Prop, (∀ i, i < 9 → P i) ↔ (P 0 ∧ P 1 ∧ P 2 ∧ P 3 ∧ P 4 ∧ P 5 ∧ P 6 ∧ P 7 ∧ P 8) := by
        intro P
        constructor
        · intro h
          exact ⟨h 0 (by decide), h 1 (by decide), h 2 (by decide), h 3 (by decide), h 4 (by decide), h 5 (by decide),
            h 6 (by decide), h 7 (by decide), h 8 (by decide)⟩
        · rintro ⟨h0, h1, h2, h3, h4, h5, h6, h7, h8⟩ i hi
          interval_cases i <;> assumption
      rw [hall]
      have k0 := @lower_eq c0 117 (by decide) (by decide)
      have k1 := @lower_eq c1 114 (by decide) (by decide)
      have k2 := @lower_eq c2 110 (by decide) (by decide)
      have k4 := @lower_eq c4 117 (by decide) (by decide)
      have k5 := @lower_eq c5 117 (by decide) (by decide)
      have k6 := @lower_eq c6 105 (by decide) (by decide)
      have k7 := @lower_eq c7 100 (by decide) (by decide)
      have k3 := @lower_colon c3
      have k8 := @lower_colon c8
      simp only [List.length_cons, List.length_nil, true_and, List.getD_cons_zero, List.getD_cons_succ, List.map_cons,
        List.map_nil, List.cons.injEq, and_true, k0, k1, k2, k3, k4, k5, k6, k7, k8, or_self]
      rfl
  · constructor
    · intro h; exact absurd h.1 hl
    · intro h
      have := congrArg List.length h
      simp at this
      exact absurd this hl

theorem orFormat_ok {o : Option Bytes} {u : Bytes} : orFormat o = .ok u ↔ o = some u := by
  cases o <;> simp [orFormat]

/-- What `uuid.Parse` accepts. -/
theorem parse_ok {s u : Bytes} : parse s = .ok u ↔
    Dashed u s ∨ (∃ p d, s = p ++ d ∧ IsUrn p ∧ Dashed u d) ∨ (∃ c c' d, s = c :: d ++ [c'] ∧ Dashed u d) ∨
      (u.length = 16 ∧ HexOf u s) := by
  constructor
  · intro h
    unfold parse at h
    split at h
    · rename_i hl
      exact .inl ((dashed_iff hl).1 (orFormat_ok.1 h))
    · split at h
      · rename_i hl
        split at h
        · cases h
        · rename_i hu
          refine .inr (.inl ⟨s.take 9, s.drop 9, (List.take_append_drop 9 s).symm, isUrn_iff.2 (not_not.1 hu), ?_⟩)
          exact (dashed_iff (by simp [hl])).1 (orFormat_ok.1 h)
      · split at h
        · rename_i hl
          refine .inr (.inr (.inl ?_))
          have hd := (dashed_some (by simp [hl])).1 (orFormat_ok.1 h)
          match s, hl with
          | c :: r, hl =>
            simp only [List.drop_succ_cons, List.drop_zero] at hd
            simp only [List.length_cons, Nat.reduceEqDiff] at hl
            refine ⟨c, (r.drop 36).headD 0, r.take 36, ?_, hd⟩
            have : r.drop 36 = [(r.drop 36).headD 0] := by
              have hr : (r.drop 36).length = 1 := by simp [hl]
              match r.drop 36, hr with
              | [x], _ => rfl
            rw [List.cons_append, ← this, List.take_append_drop]
        · split at h
          · rename_i hl
            have := undashed_iff.1 (orFormat_ok.1 h)
            have h2 := hexOf_length this
            exact .inr (.inr (.inr ⟨by omega, this⟩))
          · cases h
  · rintro (h | ⟨p, d, rfl, hp, hd⟩ | ⟨c, c', d, rfl, hd⟩ | ⟨hl, h⟩)
    · have hl := (dashed_length h).1
      unfold parse
      rw [if_pos hl, orFormat_ok]
      exact (dashed_iff hl).2 h
    · have hl := (dashed_length hd).1
      have hp9 := hp.1
      unfold parse
      rw [if_neg (by simp [hl, hp9]), if_pos (by simp [hl, hp9]), List.take_left' hp9, List.drop_left' hp9,
        if_neg (not_not.2 (isUrn_iff.1 hp)), orFormat_ok]
      exact (dashed_iff hl).2 hd
    · have hl := (dashed_length hd).1
      unfold parse
      rw [if_neg (by simp [hl]), if_neg (by simp [hl]), if_pos (by simp [hl]), orFormat_ok]
      simp only [List.cons_append, List.drop_succ_cons, List.drop_zero]
      rw [dashed_some (by simp [hl]), List.take_left' hl]
      exact hd
    · have := hexOf_length h
      unfold parse
      rw [if_neg (by omega), if_neg (by omega), if_neg (by omega), if_pos (by omega), orFormat_ok]
      exact undashed_iff.2 h

theorem names_parse {s u : Bytes} (h : Names u s) : parse s = .ok u := by
  rw [parse_ok]
  cases h with
  | dashed h => exact .inl h
  | urn hp h => exact .inr (.inl ⟨_, _, rfl, hp, h⟩)
  | braces h => exact .inr (.inr (.inl ⟨_, _, _, rfl, h⟩))
  | plain hl h => exact .inr (.inr (.inr ⟨hl, h⟩))

theorem parse_length {s u : Bytes} (h : parse s = .ok u) : 32 ≤ s.length ∧ u.length = 16 := by
  rcases parse_ok.1 h with h1 | ⟨p, d, rfl, hp, h1⟩ | ⟨c, c', d, rfl, h1⟩ | ⟨hl, h1⟩
  · have := dashed_length h1; omega
  · have := dashed_length h1; simp only [List.length_append]; omega
  · have := dashed_length h1; simp only [List.length_append, List.length_cons]; omega
  · have := hexOf_length h1; omega

theorem known_none {s : Bytes} (h : 32 ≤ s.length) : known s = none := by
  unfold known
  have d1 : (b "dns").length = 3 := by decide +kernel
  have d2 : (b "url").length = 3 := by decide +kernel
  have d3 : (b "oid").length = 3 := by decide +kernel
  have d4 : (b "x500").length = 4 := by decide +kernel
  rw [if_neg (by rintro rfl; omega), if_neg (by rintro rfl; omega), if_neg (by rintro rfl; omega),
    if_neg (by rintro rfl; omega)]

theorem stamp_length {h : Bytes} (hl : 16 ≤ h.length) : (stamp h).length = 16 := by
  unfold stamp
  simp [hl]
end Verif.Ident
