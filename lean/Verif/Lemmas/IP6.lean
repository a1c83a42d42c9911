import Verif.Lemmas.IPNum
/-! Lemmas about `parseIPv6`. -/
set_option linter.unusedSimpArgs false
namespace Verif.IPAddr

theorem setAt_some {ip : Bytes} {i v} (h : i < ip.length) : setAt ip i v = some (ip.set i v) := by
  simp [setAt, h]

theorem moveUp_spec (e n : Nat) : ∀ k (ip : Bytes), 0 < n → e + k + n ≤ ip.length →
    ∃ ip', moveUp e n k ip = some ip' ∧ ip'.length = ip.length ∧
      ∀ j, ip'[j]? = if e + n ≤ j ∧ j < e + n + k then ip[j - n]? else ip[j]? := by
  intro k
  induction k with
  | zero =>
    intro ip _ h
    refine ⟨ip, rfl, rfl, fun j => ?_⟩
    rw [if_neg (by omega)]
  | succ k ih =>
    intro ip hn h
    have hlt : e + k < ip.length := by omega
    have hlt2 : e + k + n < ip.length := by omega
    obtain ⟨ip', h1, h2, h3⟩ := ih (ip.set (e + k + n) ip[e + k]) hn (by simp; omega)
    refine ⟨ip', ?_, by simpa using h2, fun j => ?_⟩
    · simp only [moveUp, List.getElem?_eq_getElem hlt, setAt_some hlt2]
      exact h1
    · rw [h3]
      by_cases hj : j = e + k + n
      · subst hj
        rw [if_neg (by omega), if_pos (by omega)]
        simp [hlt2, List.getElem?_eq_getElem hlt]
      · by_cases hc : e + n ≤ j ∧ j < e + n + k
        · rw [if_pos hc, if_pos (by omega), List.getElem?_set]
          rw [if_neg (by omega)]
        · rw [if_neg hc, if_neg (by omega), List.getElem?_set]
          rw [if_neg (by omega)]

theorem zeroOut_spec (e : Nat) : ∀ k (ip : Bytes), e + k ≤ ip.length →
    ∃ ip', zeroOut e k ip = some ip' ∧ ip'.length = ip.length ∧
      ∀ j, ip'[j]? = if e ≤ j ∧ j < e + k then some 0 else ip[j]? := by
  intro k
  induction k with
  | zero =>
    intro ip h
    refine ⟨ip, rfl, rfl, fun j => ?_⟩
    rw [if_neg (by omega)]
  | succ k ih =>
    intro ip h
    have hlt : e + k < ip.length := by omega
    obtain ⟨ip', h1, h2, h3⟩ := ih (ip.set (e + k) 0) (by simp; omega)
    refine ⟨ip', ?_, by simpa using h2, fun j => ?_⟩
    · simp only [zeroOut, setAt_some hlt]
      exact h1
    · rw [h3]
      by_cases hj : j = e + k
      · subst hj
        rw [if_neg (by omega), if_pos (by omega)]
        simp [hlt]
      · by_cases hc : e ≤ j ∧ j < e + k
        · rw [if_pos hc, if_pos (by omega)]
        · rw [if_neg hc, if_neg (by omega), List.getElem?_set]
          rw [if_neg (by omega)]

/-- Expansion of the ellipsis at `e` after `i` bytes. -/
theorem finish6_ell {i e : Nat} {ip : Bytes} (hl : ip.length = 16) (he : e ≤ i) (hi : i < 16) :
    finish6 i [] (some e) ip =
      some (some (ip.take e ++ List.replicate (16 - i) 0 ++ (ip.take i).drop e)) := by
  obtain ⟨ip1, h1, h2, h3⟩ := moveUp_spec e (16 - i) (i - e) ip (by omega) (by omega)
  obtain ⟨ip2, h4, h5, h6⟩ := zeroOut_spec e (16 - i) ip1 (by omega)
  simp only [finish6, List.length_nil, ne_eq, not_true, if_false, if_pos hi, h1, h4, Option.map_some]
  congr 2
  apply List.ext_getElem?
  intro j
  rw [h6]
  by_cases ha : j < e
  · rw [if_neg (by omega), h3, if_neg (by omega)]
    rw [List.append_assoc, List.getElem?_append_left (by simp; omega)]
    rw [List.getElem?_take, if_pos ha]
  · by_cases hb : j < e + (16 - i)
    · rw [if_pos (by omega)]
      rw [List.getElem?_append_left (by simp; omega), List.getElem?_append_right (by simp; omega)]
      rw [List.getElem?_replicate]
      rw [if_pos (by simp; omega)]
    · rw [if_neg (by omega), h3]
      rw [List.getElem?_append_right (by simp; omega)]
      simp only [List.length_append, List.length_take, List.length_replicate, hl]
      rw [List.getElem?_drop, List.getElem?_take]
      by_cases hc : j < 16
      · rw [if_pos (by omega), if_pos (by omega)]
        congr 1
        omega
      · rw [if_neg (by omega), if_neg (by omega), List.getElem?_eq_none (by omega)]

/-! ## Heads of the grammar -/

theorem numeral_ne_nil {dig base t v} (h : Numeral dig base t v) : t ≠ [] := by
  cases h <;> simp

theorem stops_of_cons {x : UInt8} {r : Bytes} (h : hexDigit x = none) : Stops hexDigit (x :: r) := by
  intro y r' hy; cases hy; exact h

theorem stops_nil : Stops hexDigit [] := by intro y r hy; cases hy

theorem Group.scan {t v rest} (h : Group t v) (hs : Stops hexDigit rest) :
    gLoop hexDigit 16 0 0 (t ++ rest) = some (v, t.length) :=
  (hexScan_iff _ _ _).mpr ⟨t, rest, rfl, h.1, rfl, Nat.lt_of_le_of_lt h.2 (by decide), hs⟩

/-- A decimal numeral read as hexadecimal is at most the square of its value. -/
theorem dec_as_hex {t v} (h : Numeral IsDec 10 t v) : ∃ w, Numeral IsHex 16 t w ∧ w ≤ v * v := by
  induction h with
  | @one c d h => exact ⟨d, .one (.inl h), Nat.le_mul_self d⟩
  | @snoc t v c d _ h ih =>
    obtain ⟨w, h1, h2⟩ := ih
    refine ⟨w * 16 + d, .snoc h1 (.inl h), ?_⟩
    have e1 : (v * 10 + d) * (v * 10 + d) = 100 * (v * v) + 20 * (v * d) + d * d := by
      rw [Nat.add_mul, Nat.mul_add, Nat.mul_add]
      have a1 : v * 10 * (v * 10) = 100 * (v * v) := by
        rw [Nat.mul_assoc, Nat.mul_left_comm 10 v 10, ← Nat.mul_assoc, Nat.mul_comm]
      have a2 : v * 10 * d = 10 * (v * d) := by
        rw [Nat.mul_assoc, Nat.mul_left_comm]
      have a3 : d * (v * 10) = 10 * (v * d) := by
        rw [← Nat.mul_assoc, Nat.mul_comm d v, Nat.mul_comm]
      rw [a1, a2, a3]; omega
    rw [e1]
    have := Nat.le_mul_self d
    omega

theorem numeral_head {t v} (h : Numeral IsHex 16 t v) : ∃ x r, t = x :: r ∧ hexDigit x ≠ none := by
  induction h with
  | @one c d h => exact ⟨c, [], rfl, by rw [(hexDigit_iff c d).mpr h]; simp⟩
  | snoc _ _ ih => obtain ⟨x, r, rfl, h⟩ := ih; exact ⟨x, r ++ _, rfl, h⟩

theorem quad_head {s o} (h : Quad s o) : ∃ v c rest, gLoop hexDigit 16 0 0 s = some (v, c) ∧
    v ≤ 0xFFFF ∧ s.drop c = 46 :: rest := by
  obtain ⟨t0, t1, t2, t3, v0, v1, v2, v3, h0, h1, h2, h3, rfl, rfl⟩ := h
  obtain ⟨w, hw, hle⟩ := dec_as_hex h0.1
  have h255 : v0 * v0 ≤ 255 * 255 := Nat.mul_le_mul h0.2 h0.2
  have hg : Group t0 w := ⟨hw, by omega⟩
  exact ⟨w, t0.length, _, hg.scan (stops_of_cons (by decide)), hg.2, by rw [List.drop_left]⟩

/-- What `Groups` looks like after the first hexadecimal number. -/
inductive GroupsTail (s : Bytes) (v c : Nat) (gs : List Nat) : Prop
  | last (h : s.drop c = []) (hg : gs = [v])
  | quad {r x y z w} (h : s.drop c = 46 :: r) (hq : Quad s [x, y, z, w])
      (hg : gs = [x * 256 + y, z * 256 + w])
  | more {x r gs'} (h : s.drop c = 58 :: x :: r) (hx : x ≠ 58) (hu : Groups (x :: r) gs')
      (hg : gs = v :: gs')

theorem Groups.head_hex {s gs} (h : Groups s gs) : ∃ x r, s = x :: r ∧ hexDigit x ≠ none := by
  cases h with
  | one h => exact numeral_head h.1
  | quad h =>
    obtain ⟨t0, t1, t2, t3, v0, v1, v2, v3, h0, h1, h2, h3, rfl, _⟩ := h
    obtain ⟨w, hw, _⟩ := dec_as_hex h0.1
    obtain ⟨x, r, rfl, h⟩ := numeral_head hw
    exact ⟨x, _, rfl, h⟩
  | cons h _ => obtain ⟨x, r, rfl, hx⟩ := numeral_head h.1; exact ⟨x, _, rfl, hx⟩

theorem groups_iff {s gs} : Groups s gs ↔
    ∃ v c, gLoop hexDigit 16 0 0 s = some (v, c) ∧ v ≤ 0xFFFF ∧ GroupsTail s v c gs := by
  constructor
  · intro h
    cases h with
    | @one t v h =>
      refine ⟨v, s.length, by simpa using h.scan stops_nil, h.2, .last (by simp) rfl⟩
    | @quad t a b c d h =>
      obtain ⟨v, c', rest, h1, h2, h3⟩ := quad_head h
      exact ⟨v, c', h1, h2, .quad h3 h rfl⟩
    | @cons t v u gs' h1 h2 =>
      obtain ⟨x, r, rfl, hx⟩ := h2.head_hex
      refine ⟨v, t.length, h1.scan (stops_of_cons (by decide)), h1.2,
        .more (by rw [List.drop_left]) ?_ h2 rfl⟩
      rintro rfl; exact hx (by decide)
  · rintro ⟨v, c, h1, h2, h3⟩
    obtain ⟨t, rest, rfl, h5, rfl, _, _⟩ := (hexScan_iff _ _ _).mp h1
    cases h3 with
    | last h hg =>
      rw [List.drop_left] at h; subst h hg
      rw [List.append_nil]; exact .one ⟨h5, h2⟩
    | quad h hq hg => subst hg; exact .quad hq
    | more h hx hu hg =>
      rw [List.drop_left] at h; subst h hg
      exact .cons ⟨h5, h2⟩ hu

/-- Groups, then `::`, then the rest. -/
def EllText (s : Bytes) (lg rg : List Nat) : Prop :=
  ∃ l r, HexGroups l lg ∧ (r = [] ∧ rg = [] ∨ Groups r rg) ∧ s = l ++ 58 :: 58 :: r

inductive EllTail (s : Bytes) (v c : Nat) (lg rg : List Nat) : Prop
  | here {r} (h : s.drop c = 58 :: 58 :: r) (hr : r = [] ∧ rg = [] ∨ Groups r rg) (hg : lg = [v])
  | more {x r lg'} (h : s.drop c = 58 :: x :: r) (hx : x ≠ 58) (hu : EllText (x :: r) lg' rg)
      (hg : lg = v :: lg')

theorem HexGroups.head_hex {s gs} (h : HexGroups s gs) : ∃ x r, s = x :: r ∧ hexDigit x ≠ none := by
  cases h with
  | one h => exact numeral_head h.1
  | cons h _ => obtain ⟨x, r, rfl, hx⟩ := numeral_head h.1; exact ⟨x, _, rfl, hx⟩

theorem ellText_iff {s lg rg} : EllText s lg rg ↔
    ∃ v c, gLoop hexDigit 16 0 0 s = some (v, c) ∧ v ≤ 0xFFFF ∧ EllTail s v c lg rg := by
  constructor
  · rintro ⟨l, r, hl, hr, rfl⟩
    cases hl with
    | @one t v h =>
      exact ⟨v, l.length, h.scan (stops_of_cons (by decide)), h.2,
        .here (by rw [List.drop_left]) hr rfl⟩
    | @cons t v u gs' h1 h2 =>
      obtain ⟨x, u', rfl, hx⟩ := h2.head_hex
      refine ⟨v, t.length, ?_, h1.2, .more (x := x) (r := u' ++ 58 :: 58 :: r) ?_ ?_
        ⟨x :: u', r, h2, hr, rfl⟩ rfl⟩
      · rw [List.append_assoc]
        exact h1.scan (stops_of_cons (by decide))
      · rw [List.append_assoc, List.drop_left]; rfl
      · rintro rfl; exact hx (by decide)
  · rintro ⟨v, c, h1, h2, h3⟩
    obtain ⟨t, rest, rfl, h5, rfl, _, _⟩ := (hexScan_iff _ _ _).mp h1
    cases h3 with
    | here h hr hg =>
      rw [List.drop_left] at h; subst h hg
      exact ⟨t, _, .one ⟨h5, h2⟩, hr, rfl⟩
    | more h hx hu hg =>
      rw [List.drop_left] at h; subst h hg
      obtain ⟨l, r', hl, hr, he⟩ := hu
      exact ⟨t ++ 58 :: l, r', .cons ⟨h5, h2⟩ hl, hr, by simp [he]⟩

/-! ## The loop -/

theorem groups_len {s gs} (h : Groups s gs) : 1 ≤ gs.length := by
  cases h <;> simp

theorem groupBytes_len (gs : List Nat) : (groupBytes gs).length = 2 * gs.length := by
  induction gs with
  | nil => rfl
  | cons g gs ih =>
    have : groupBytes (g :: gs) = [UInt8.ofNat (g / 256), UInt8.ofNat (g % 256)] ++ groupBytes gs := rfl
    rw [this, List.length_append, ih]; simp; omega

/-- Writing a group: L118-119. -/
theorem write2 {ip : Bytes} {i : Nat} {x y : UInt8} (hl : ip.length = 16) (hi : i + 2 ≤ 16) :
    ∃ ip', ((setAt ip i x).bind fun ip => setAt ip (i + 1) y) = some ip' ∧ ip'.length = 16 ∧
      ip'.take (i + 2) = ip.take i ++ [x, y] := by
  refine ⟨(ip.set i x).set (i + 1) y, ?_, by simpa using hl, ?_⟩
  · rw [setAt_some (by omega), Option.bind_some, setAt_some (by simp; omega)]
  · apply List.ext_getElem?
    intro j
    simp only [List.getElem?_take, List.getElem?_set]
    by_cases h1 : j < i
    · rw [List.getElem?_append_left (by simp; omega), List.getElem?_take, if_pos h1, if_pos (by omega)]
      rw [if_neg (by omega), if_neg (by omega)]
    · rw [List.getElem?_append_right (by simp; omega)]
      simp only [List.length_take, hl, List.length_set]
      by_cases h2 : j = i
      · subst h2
        rw [if_pos (by omega), if_neg (by omega), if_pos rfl, if_pos (by omega)]
        rw [show j - min j 16 = 0 by omega]; rfl
      · by_cases h3 : j = i + 1
        · subst h3
          rw [if_pos (by omega), if_pos rfl, if_pos (by omega)]
          rw [show i + 1 - min i 16 = 1 by omega]; rfl
        · rw [if_neg (by omega), List.getElem?_eq_none (by simp; omega)]

theorem write4 {ip : Bytes} {i : Nat} {x y z w : UInt8} (hl : ip.length = 16) (hi : i + 4 ≤ 16) :
    ∃ ip', ((((setAt ip i x).bind fun ip => setAt ip (i + 1) y).bind
        fun ip => setAt ip (i + 2) z).bind fun ip => setAt ip (i + 3) w) = some ip' ∧
      ip'.length = 16 ∧ ip'.take (i + 4) = ip.take i ++ [x, y, z, w] := by
  obtain ⟨ip1, h1, h2, h3⟩ := write2 (x := x) (y := y) hl (by omega : i + 2 ≤ 16)
  obtain ⟨ip2, h4, h5, h6⟩ := write2 (x := z) (y := w) h2 (by omega : i + 2 + 2 ≤ 16)
  refine ⟨ip2, ?_, h5, ?_⟩
  · rw [h1]; exact h4
  · rw [show i + 4 = i + 2 + 2 by omega, h6, h3]; simp

theorem groupBytes_cons (g : Nat) (gs : List Nat) :
    groupBytes (g :: gs) = [UInt8.ofNat (g / 256), UInt8.ofNat (g % 256)] ++ groupBytes gs := rfl

theorem xtoi_ok {s v c} (h : gLoop hexDigit 16 0 0 s = some (v, c)) :
    (xtoi s).ok = true ∧ (xtoi s).n = v ∧ (xtoi s).i = c := by
  have := xtoi_g s
  rw [h] at this
  simp only [Num.val] at this
  split at this
  · rename_i hok
    cases this
    exact ⟨hok, rfl, rfl⟩
  · cases this

theorem xtoi_fail {s} (h : gLoop hexDigit 16 0 0 s = none) : (xtoi s).ok = false := by
  have := xtoi_g s
  rw [h] at this
  simp only [Num.val] at this
  split at this
  · cases this
  · rename_i hok; simpa using hok

theorem scan_le {s v c} (h : gLoop hexDigit 16 0 0 s = some (v, c)) : c ≤ s.length := by
  obtain ⟨t, rest, rfl, _, rfl, _⟩ := (hexScan_iff _ _ _).mp h
  simp

theorem quad_bytes {x y z w : Nat} (hy : y ≤ 255)
    (hw : w ≤ 255) : groupBytes [x * 256 + y, z * 256 + w] = [x, y, z, w].map UInt8.ofNat := by
  have e1 : ∀ a b, b ≤ 255 → (a * 256 + b) / 256 = a := by intros; omega
  have e2 : ∀ a b, b ≤ 255 → (a * 256 + b) % 256 = b := by intros; omega
  simp [groupBytes, e1, e2, hy, hw]

theorem quad_le {s x y z w} (h : Quad s [x, y, z, w]) : x ≤ 255 ∧ y ≤ 255 ∧ z ≤ 255 ∧ w ≤ 255 := by
  obtain ⟨t0, t1, t2, t3, v0, v1, v2, v3, h0, h1, h2, h3, _, he⟩ := h
  simp only [List.cons.injEq, and_true] at he
  obtain ⟨rfl, rfl, rfl, rfl⟩ := he
  exact ⟨h0.2, h1.2, h2.2, h3.2⟩

theorem quad_four {s o} (h : Quad s o) : ∃ x y z w, o = [x, y, z, w] := by
  obtain ⟨t0, t1, t2, t3, v0, v1, v2, v3, h0, h1, h2, h3, _, he⟩ := h
  exact ⟨_, _, _, _, he⟩

/-- After the ellipsis. -/
def Res2 (i : Nat) (s : Bytes) (e : Nat) (ip : Bytes) (out : Bytes) : Prop :=
  ∃ gs, Groups s gs ∧ i + 2 * gs.length < 16 ∧
    out = ip.take e ++ List.replicate (16 - (i + 2 * gs.length)) 0 ++ (ip.take i).drop e ++ groupBytes gs

/-- Before any ellipsis. -/
def Res1 (i : Nat) (s : Bytes) (ip : Bytes) (out : Bytes) : Prop :=
  (∃ gs, Groups s gs ∧ i + 2 * gs.length = 16 ∧ out = ip.take i ++ groupBytes gs) ∨
  (∃ lg rg, EllText s lg rg ∧ i + 2 * (lg.length + rg.length) < 16 ∧
    out = ip.take i ++ groupBytes lg ++ List.replicate (16 - (i + 2 * (lg.length + rg.length))) 0
      ++ groupBytes rg)

def Res (i : Nat) (s : Bytes) (ell : Option Nat) (ip : Bytes) (out : Bytes) : Prop :=
  match ell with
  | none => Res1 i s ip out
  | some e => Res2 i s e ip out

theorem res_scan {i s ell ip out} (h : Res i s ell ip out) :
    ∃ v c, gLoop hexDigit 16 0 0 s = some (v, c) ∧ v ≤ 0xFFFF := by
  cases ell with
  | none =>
    rcases h with ⟨gs, h1, _⟩ | ⟨lg, rg, h1, _⟩
    · obtain ⟨v, c, h2, h3, _⟩ := groups_iff.mp h1; exact ⟨v, c, h2, h3⟩
    · obtain ⟨v, c, h2, h3, _⟩ := ellText_iff.mp h1; exact ⟨v, c, h2, h3⟩
  | some e =>
    obtain ⟨gs, h1, _⟩ := h
    obtain ⟨v, c, h2, h3, _⟩ := groups_iff.mp h1; exact ⟨v, c, h2, h3⟩

theorem take_drop_append {a c : Bytes} {e : Nat} (h : e ≤ a.length) :
    (a ++ c).drop e = a.drop e ++ c := by
  rw [List.drop_append_of_le_length h]

theorem take_take_le {ip ip' : Bytes} {i j e : Nat} {c : Bytes} (hl : ip.length = 16) (hi : i ≤ 16)
    (h : ip'.take j = ip.take i ++ c) (he : e ≤ i) (hij : i ≤ j) : ip'.take e = ip.take e := by
  have h1 : (ip'.take j).take e = ip'.take e := by rw [List.take_take]; congr 1; omega
  rw [← h1, h, List.take_append_of_le_length (by simp; omega), List.take_take]
  congr 1; omega

theorem res_more {i v c : Nat} {s : Bytes} {ell : Option Nat} {x r} {ip ip' : Bytes}
    (hl : ip.length = 16) (hi : i + 2 ≤ 16)
    (hell : ∀ e, ell = some e → e ≤ i)
    (hsc : gLoop hexDigit 16 0 0 s = some (v, c)) (hv : v ≤ 0xFFFF)
    (hd : s.drop c = 58 :: x :: r) (hx : x ≠ 58)
    (htk : ip'.take (i + 2) = ip.take i ++ [UInt8.ofNat (v / 256), UInt8.ofNat (v % 256)]) (out : Bytes) :
    Res i s ell ip out ↔ Res (i + 2) (x :: r) ell ip' out := by
  have hG : ∀ gs, Groups s gs ↔ ∃ gs', Groups (x :: r) gs' ∧ gs = v :: gs' := by
    intro gs
    rw [groups_iff]
    constructor
    · rintro ⟨v', c', h1, _, h3⟩
      rw [hsc] at h1; cases h1
      cases h3 with
      | last h _ => rw [hd] at h; cases h
      | quad h _ _ => rw [hd] at h; cases h
      | more h hx' hu hg => rw [hd] at h; cases h; exact ⟨_, hu, hg⟩
    · rintro ⟨gs', h1, h2⟩
      exact ⟨v, c, hsc, hv, .more hd hx h1 h2⟩
  have hE : ∀ lg rg, EllText s lg rg ↔ ∃ lg', EllText (x :: r) lg' rg ∧ lg = v :: lg' := by
    intro lg rg
    rw [ellText_iff]
    constructor
    · rintro ⟨v', c', h1, _, h3⟩
      rw [hsc] at h1; cases h1
      cases h3 with
      | here h _ _ => rw [hd] at h; cases h; exact absurd rfl hx
      | more h hx' hu hg => rw [hd] at h; cases h; exact ⟨_, hu, hg⟩
    · rintro ⟨lg', h1, h2⟩
      exact ⟨v, c, hsc, hv, .more hd hx h1 h2⟩
  cases ell with
  | none =>
    simp only [Res, Res1, hG, hE, htk]
    constructor
    · rintro (⟨gs, ⟨gs', h1, rfl⟩, h2, h3⟩ | ⟨lg, rg, ⟨lg', h1, rfl⟩, h2, h3⟩)
      · refine .inl ⟨gs', h1, ?_, ?_⟩
        · simp only [List.length_cons] at h2; omega
        · rw [h3, groupBytes_cons]; simp
      · refine .inr ⟨lg', rg, h1, ?_, ?_⟩
        · simp only [List.length_cons] at h2; omega
        · rw [h3, groupBytes_cons]
          simp only [List.length_cons]
          rw [show i + 2 * (lg'.length + 1 + rg.length) = i + 2 + 2 * (lg'.length + rg.length) by omega]
          simp
    · rintro (⟨gs', h1, h2, h3⟩ | ⟨lg', rg, h1, h2, h3⟩)
      · refine .inl ⟨v :: gs', ⟨gs', h1, rfl⟩, ?_, ?_⟩
        · simp only [List.length_cons]; omega
        · rw [h3, groupBytes_cons]; simp
      · refine .inr ⟨v :: lg', rg, ⟨lg', h1, rfl⟩, ?_, ?_⟩
        · simp only [List.length_cons]; omega
        · rw [h3, groupBytes_cons]
          simp only [List.length_cons]
          rw [show i + 2 * (lg'.length + 1 + rg.length) = i + 2 + 2 * (lg'.length + rg.length) by omega]
          simp
  | some e =>
    have hei := hell e rfl
    have ht1 : ip'.take e = ip.take e := take_take_le hl (by omega) htk hei (by omega)
    have ht2 : (ip'.take (i + 2)).drop e = (ip.take i).drop e ++ [UInt8.ofNat (v / 256), UInt8.ofNat (v % 256)] := by
      rw [htk, take_drop_append (by simp; omega)]
    simp only [Res, Res2, hG, ht1, ht2]
    constructor
    · rintro ⟨gs, ⟨gs', h1, rfl⟩, h2, h3⟩
      refine ⟨gs', h1, ?_, ?_⟩
      · simp only [List.length_cons] at h2; omega
      · rw [h3, groupBytes_cons]
        simp only [List.length_cons]
        rw [show i + 2 * (gs'.length + 1) = i + 2 + 2 * gs'.length by omega]
        simp
    · rintro ⟨gs', h1, h2, h3⟩
      refine ⟨v :: gs', ⟨gs', h1, rfl⟩, ?_, ?_⟩
      · simp only [List.length_cons]; omega
      · rw [h3, groupBytes_cons]
        simp only [List.length_cons]
        rw [show i + 2 * (gs'.length + 1) = i + 2 + 2 * gs'.length by omega]
        simp

theorem getElem?_of_drop {s : Bytes} {c : Nat} {x r} (h : s.drop c = x :: r) :
    c < s.length ∧ s[c]? = some x := by
  have h1 : (s.drop c)[0]? = some x := by rw [h]; rfl
  rw [List.getElem?_drop, Nat.add_zero] at h1
  refine ⟨?_, h1⟩
  rcases Nat.lt_or_ge c s.length with h2 | h2
  · exact h2
  · rw [List.getElem?_eq_none h2] at h1; cases h1

theorem loop6_iff : ∀ fuel i s ell ip, 18 ≤ i + 2 * fuel → i ≤ 16 → i % 2 = 0 → s ≠ [] →
    ip.length = 16 → (∀ e, ell = some e → e ≤ i) →
    ∃ r, loop6 fuel i s ell ip = some r ∧ ∀ out, r = some out ↔ Res i s ell ip out := by
  intro fuel
  induction fuel with
  | zero => intro i s ell ip h1 h2; omega
  | succ fuel ih =>
    intro i s ell ip hf hi hev hs hl hell
    rw [loop6]
    by_cases hlt : i < 16
    rotate_left
    · -- the address is full but text is left
      refine ⟨none, by rw [if_pos hlt]; simp [finish6, hs], fun out => ⟨fun h => (by cases h), ?_⟩⟩
      intro h
      cases ell with
      | none =>
        rcases h with ⟨gs, h1, h2, _⟩ | ⟨lg, rg, _, h2, _⟩
        · have := groups_len h1; omega
        · omega
      | some e => obtain ⟨gs, _, h2, _⟩ := h; omega
    rw [if_neg (by omega)]
    dsimp only
    cases hsc : gLoop hexDigit 16 0 0 s with
    | none =>
      refine ⟨none, by simp [xtoi_fail hsc], fun out => ⟨fun h => (by cases h), fun h => ?_⟩⟩
      obtain ⟨v, c, h1, _⟩ := res_scan h
      rw [hsc] at h1; cases h1
    | some vc =>
    obtain ⟨v, c⟩ := vc
    obtain ⟨hok, hn, hc⟩ := xtoi_ok hsc
    by_cases hv : v ≤ 0xFFFF
    rotate_left
    · refine ⟨none, by rw [hn]; simp; omega, fun out => ⟨fun h => (by cases h), fun h => ?_⟩⟩
      obtain ⟨v', c', h1, h2⟩ := res_scan h
      rw [hsc] at h1; cases h1; omega
    have hcle := scan_le hsc
    rw [if_neg (by rw [hok, hn]; simp; omega), hc, hn]
    cases hd : s.drop c with
    | nil =>
      -- end of the text
      have hclen : c = s.length := by
        have : (s.drop c).length = 0 := by rw [hd]; rfl
        rw [List.length_drop] at this; omega
      rw [if_neg (by omega)]
      obtain ⟨ip', h1, h2, h3⟩ := write2 (x := UInt8.ofNat (v / 256)) (y := UInt8.ofNat (v % 256)) hl (by omega : i + 2 ≤ 16)
      rw [h1]
      dsimp only
      simp only [sliceFrom, hcle, if_true, hd, List.length_nil]
      have hG : ∀ gs, Groups s gs ↔ gs = [v] := by
        intro gs
        rw [groups_iff]
        constructor
        · rintro ⟨v', c', h4, _, h5⟩
          rw [hsc] at h4; cases h4
          cases h5 with
          | last _ hg => exact hg
          | quad h _ _ => rw [hd] at h; cases h
          | more h _ _ _ => rw [hd] at h; cases h
        · rintro rfl; exact ⟨v, c, hsc, hv, .last hd rfl⟩
      have hE : ∀ lg rg, ¬ EllText s lg rg := by
        intro lg rg h
        obtain ⟨v', c', h4, _, h5⟩ := ellText_iff.mp h
        rw [hsc] at h4; cases h4
        cases h5 with
        | here h _ _ => rw [hd] at h; cases h
        | more h _ _ _ => rw [hd] at h; cases h
      cases ell with
      | none =>
        by_cases h14 : i = 14
        · subst h14
          refine ⟨some ip', by simp [finish6], fun out => ?_⟩
          have : ip' = ip.take 14 ++ groupBytes [v] := by
            rw [← List.take_of_length_le (Nat.le_of_eq h2)]
            rw [show 14 + 2 = 16 by rfl] at h3
            rw [h3]; rfl
          simp only [Res, Res1, hG, hE]
          constructor
          · intro h; cases h; exact .inl ⟨[v], rfl, rfl, this⟩
          · rintro (⟨gs, rfl, _, h⟩ | ⟨_, _, h, _⟩)
            · rw [h, this]
            · exact h.elim
        · refine ⟨none, by simp [finish6]; omega, fun out => ⟨fun h => (by cases h), ?_⟩⟩
          simp only [Res, Res1, hG, hE]
          rintro (⟨gs, rfl, h, _⟩ | ⟨_, _, h, _⟩)
          · simp at h; omega
          · exact h.elim
      | some e =>
        have hei := hell e rfl
        by_cases h14 : i = 14
        · subst h14
          refine ⟨none, by simp [finish6], fun out => ⟨fun h => (by cases h), ?_⟩⟩
          simp only [Res, Res2, hG]
          rintro ⟨gs, rfl, h, _⟩
          simp at h
        · refine ⟨_, finish6_ell h2 (by omega : e ≤ i + 2) (by omega), fun out => ?_⟩
          have ht1 : ip'.take e = ip.take e := take_take_le hl (by omega) h3 hei (by omega)
          have ht2 : (ip'.take (i + 2)).drop e = (ip.take i).drop e ++ [UInt8.ofNat (v / 256), UInt8.ofNat (v % 256)] := by
            rw [h3, take_drop_append (by simp; omega)]
          simp only [Res, Res2, hG, ht1, ht2]
          constructor
          · intro h; cases h
            exact ⟨[v], rfl, by simp; omega, by simp [groupBytes]⟩
          · rintro ⟨gs, rfl, _, h⟩
            rw [h]; simp [groupBytes]
    | cons x r =>
    obtain ⟨hclt, hget⟩ := getElem?_of_drop hd
    by_cases hdot : x = 46
    · -- trailing dotted quad
      subst hdot
      rw [if_pos ⟨hclt, hget⟩]
      have hG : ∀ gs, Groups s gs ↔ ∃ x y z w, Quad s [x, y, z, w] ∧ gs = [x * 256 + y, z * 256 + w] := by
        intro gs
        rw [groups_iff]
        constructor
        · rintro ⟨v', c', h4, _, h5⟩
          rw [hsc] at h4; cases h4
          cases h5 with
          | last h _ => rw [hd] at h; cases h
          | quad _ hq hg => exact ⟨_, _, _, _, hq, hg⟩
          | more h _ _ _ => rw [hd] at h; cases h
        · rintro ⟨x, y, z, w, hq, hg⟩; exact ⟨v, c, hsc, hv, .quad hd hq hg⟩
      have hE : ∀ lg rg, ¬ EllText s lg rg := by
        intro lg rg h
        obtain ⟨v', c', h4, _, h5⟩ := ellText_iff.mp h
        rw [hsc] at h4; cases h4
        cases h5 with
        | here h _ _ => rw [hd] at h; cases h
        | more h _ _ _ => rw [hd] at h; cases h
      by_cases h12 : ell = none ∧ i ≠ 12
      · rw [if_pos h12]
        refine ⟨none, rfl, fun out => ⟨fun h => (by cases h), ?_⟩⟩
        rw [h12.1]
        simp only [Res, Res1, hG, hE]
        rintro (⟨gs, ⟨_, _, _, _, _, rfl⟩, h, _⟩ | ⟨_, _, h, _⟩)
        · simp at h; omega
        · exact h.elim
      rw [if_neg h12]
      by_cases hroom : i + 4 > 16
      · rw [if_pos hroom]
        refine ⟨none, rfl, fun out => ⟨fun h => (by cases h), ?_⟩⟩
        cases ell with
        | none =>
          simp only [Res, Res1, hG, hE]
          rintro (⟨gs, ⟨_, _, _, _, _, rfl⟩, h, _⟩ | ⟨_, _, h, _⟩)
          · simp at h; omega
          · exact h.elim
        | some e =>
          simp only [Res, Res2, hG]
          rintro ⟨gs, ⟨_, _, _, _, _, rfl⟩, h, _⟩
          simp at h; omega
      rw [if_neg hroom]
      obtain ⟨r4, h4, h5⟩ := parseIPv4_iff s
      rw [h4]
      cases r4 with
      | none =>
        refine ⟨none, rfl, fun out => ⟨fun h => (by cases h), ?_⟩⟩
        have hnq : ∀ o, ¬ Quad s o := fun o ho => by
          have := (h5 _).mpr ⟨o, ho, rfl⟩; cases this
        cases ell with
        | none =>
          simp only [Res, Res1, hG, hE]
          rintro (⟨gs, ⟨_, _, _, _, hq, _⟩, _, _⟩ | ⟨_, _, h, _⟩)
          · exact absurd hq (hnq _)
          · exact h.elim
        | some e =>
          simp only [Res, Res2, hG]
          rintro ⟨gs, ⟨_, _, _, _, hq, _⟩, _, _⟩
          exact absurd hq (hnq _)
      | some ip4 =>
        obtain ⟨o, hq, rfl⟩ := (h5 ip4).mp rfl
        obtain ⟨x, y, z, w, rfl⟩ := quad_four hq
        obtain ⟨hx, hy, hz, hw⟩ := quad_le hq
        have huniq : ∀ x' y' z' w', Quad s [x', y', z', w'] → groupBytes [x' * 256 + y', z' * 256 + w'] = [x, y, z, w].map UInt8.ofNat := by
          intro x' y' z' w' hq'
          obtain ⟨hx', hy', hz', hw'⟩ := quad_le hq'
          rw [quad_bytes hy' hw']
          have := (h5 _).mpr ⟨_, hq', rfl⟩
          have := Option.some.inj this
          exact (List.append_cancel_left this).symm
        simp only [mappedPrefix, List.map_cons, List.map_nil, List.cons_append, List.nil_append,
          List.getElem?_cons_succ, List.getElem?_cons_zero]
        obtain ⟨ip', h1, h2, h3⟩ := write4 (x := UInt8.ofNat x) (y := UInt8.ofNat y)
          (z := UInt8.ofNat z) (w := UInt8.ofNat w) hl (by omega : i + 4 ≤ 16)
        rw [h1]
        dsimp only
        cases ell with
        | none =>
          have h12' : i = 12 := by
            by_cases h : i = 12
            · exact h
            · exact absurd ⟨rfl, h⟩ h12
          subst h12'
          refine ⟨some ip', by simp [finish6], fun out => ?_⟩
          have : ip' = ip.take 12 ++ [x, y, z, w].map UInt8.ofNat := by
            rw [← List.take_of_length_le (Nat.le_of_eq h2)]
            rw [show 12 + 4 = 16 by rfl] at h3
            rw [h3]; rfl
          simp only [Res, Res1, hG, hE]
          constructor
          · intro h; cases h
            refine .inl ⟨_, ⟨x, y, z, w, hq, rfl⟩, rfl, ?_⟩
            rw [huniq x y z w hq]; exact this
          · rintro (⟨gs, ⟨x', y', z', w', hq', rfl⟩, _, h⟩ | ⟨_, _, h, _⟩)
            · rw [h, this, huniq _ _ _ _ hq']
            · exact h.elim
        | some e =>
          have hei := hell e rfl
          by_cases h12' : i = 12
          · subst h12'
            refine ⟨none, by simp [finish6], fun out => ⟨fun h => (by cases h), ?_⟩⟩
            simp only [Res, Res2, hG]
            rintro ⟨gs, ⟨_, _, _, _, _, rfl⟩, h, _⟩
            simp at h
          · refine ⟨_, finish6_ell h2 (by omega : e ≤ i + 4) (by omega), fun out => ?_⟩
            have ht1 : ip'.take e = ip.take e := take_take_le hl (by omega) h3 hei (by omega)
            have ht2 : (ip'.take (i + 4)).drop e = (ip.take i).drop e ++ [x, y, z, w].map UInt8.ofNat := by
              rw [h3, take_drop_append (by simp; omega)]; rfl
            simp only [Res, Res2, hG, ht1, ht2]
            constructor
            · intro h; cases h
              refine ⟨_, ⟨x, y, z, w, hq, rfl⟩, by simp; omega, ?_⟩
              rw [huniq x y z w hq]; simp
            · rintro ⟨gs, ⟨x', y', z', w', hq', rfl⟩, _, h⟩
              rw [h, huniq _ _ _ _ hq']; simp
    · -- a group, then something that is not a dot
      rw [if_neg (by rw [hget]; simp [hdot])]
      obtain ⟨ip', h1, h2, h3⟩ := write2 (x := UInt8.ofNat (v / 256)) (y := UInt8.ofNat (v % 256)) hl (by omega : i + 2 ≤ 16)
      rw [h1]
      dsimp only
      simp only [sliceFrom, hcle, if_true, hd, List.length_cons, Nat.succ_ne_zero, if_false,
        List.getElem?_cons_zero]
      by_cases hcol : x = 58
      rotate_left
      · rw [if_pos (.inl hcol)]
        refine ⟨none, rfl, fun out => ⟨fun h => (by cases h), fun h => ?_⟩⟩
        have hG : ∀ gs, ¬ Groups s gs := by
          intro gs h
          obtain ⟨v', c', h4, _, h5⟩ := groups_iff.mp h
          rw [hsc] at h4; cases h4
          cases h5 with
          | last h _ => rw [hd] at h; cases h
          | quad h _ _ => rw [hd] at h; cases h; exact hdot rfl
          | more h _ _ _ => rw [hd] at h; cases h; exact hcol rfl
        have hE : ∀ lg rg, ¬ EllText s lg rg := by
          intro lg rg h
          obtain ⟨v', c', h4, _, h5⟩ := ellText_iff.mp h
          rw [hsc] at h4; cases h4
          cases h5 with
          | here h _ _ => rw [hd] at h; cases h; exact hcol rfl
          | more h _ _ _ => rw [hd] at h; cases h; exact hcol rfl
        cases ell with
        | none =>
          rcases h with ⟨gs, h, _⟩ | ⟨_, _, h, _⟩
          · exact (hG _ h).elim
          · exact (hE _ _ h).elim
        | some e => obtain ⟨gs, h, _⟩ := h; exact (hG _ h).elim
      subst hcol
      cases r with
      | nil =>
        rw [if_pos (.inr rfl)]
        refine ⟨none, rfl, fun out => ⟨fun h => (by cases h), fun h => ?_⟩⟩
        have hG : ∀ gs, ¬ Groups s gs := by
          intro gs h
          obtain ⟨v', c', h4, _, h5⟩ := groups_iff.mp h
          rw [hsc] at h4; cases h4
          cases h5 with
          | last h _ => rw [hd] at h; cases h
          | quad h _ _ => rw [hd] at h; cases h
          | more h _ _ _ => rw [hd] at h; cases h
        have hE : ∀ lg rg, ¬ EllText s lg rg := by
          intro lg rg h
          obtain ⟨v', c', h4, _, h5⟩ := ellText_iff.mp h
          rw [hsc] at h4; cases h4
          cases h5 with
          | here h _ _ => rw [hd] at h; cases h
          | more h _ _ _ => rw [hd] at h; cases h
        cases ell with
        | none =>
          rcases h with ⟨gs, h, _⟩ | ⟨_, _, h, _⟩
          · exact (hG _ h).elim
          · exact (hE _ _ h).elim
        | some e => obtain ⟨gs, h, _⟩ := h; exact (hG _ h).elim
      | cons y r =>
        rw [if_neg (by simp)]
        simp only [List.length_cons, Nat.le_add_left, if_true, List.drop_succ_cons, List.drop_zero,
          List.getElem?_cons_zero]
        by_cases hy : y = 58
        rotate_left
        · rw [if_neg hy]
          obtain ⟨r', h4, h5⟩ := ih (i + 2) (y :: r) ell ip' (by omega) (by omega) (by omega) (by simp)
            h2 (fun e he => by have := hell e he; omega)
          refine ⟨r', h4, fun out => ?_⟩
          rw [h5]
          exact (res_more hl (by omega) hell hsc hv hd hy h3 out).symm
        · subst hy
          rw [if_pos rfl]
          have hG : ∀ gs, ¬ Groups s gs := by
            intro gs h
            obtain ⟨v', c', h4, _, h5⟩ := groups_iff.mp h
            rw [hsc] at h4; cases h4
            cases h5 with
            | last h _ => rw [hd] at h; cases h
            | quad h _ _ => rw [hd] at h; cases h
            | more h hx _ _ => rw [hd] at h; cases h; exact hx rfl
          cases ell with
          | some e =>
            rw [if_pos (by simp)]
            refine ⟨none, rfl, fun out => ⟨fun h => (by cases h), fun h => ?_⟩⟩
            obtain ⟨gs, h, _⟩ := h; exact absurd h (hG _)
          | none =>
            rw [if_neg (by simp)]
            have hE : ∀ lg rg, EllText s lg rg ↔ lg = [v] ∧ (r = [] ∧ rg = [] ∨ Groups r rg) := by
              intro lg rg
              rw [ellText_iff]
              constructor
              · rintro ⟨v', c', h4, _, h5⟩
                rw [hsc] at h4; cases h4
                cases h5 with
                | here h hr hg => rw [hd] at h; cases h; exact ⟨hg, hr⟩
                | more h hx _ _ => rw [hd] at h; cases h; exact absurd rfl hx
              · rintro ⟨h4, h5⟩
                exact ⟨v, c, hsc, hv, .here hd h5 h4⟩
            cases r with
            | nil =>
              simp only [List.length_nil, if_true]
              have hE' : ∀ lg rg, EllText s lg rg ↔ lg = [v] ∧ rg = [] := by
                intro lg rg
                rw [hE]
                constructor
                · rintro ⟨h4, h5 | h5⟩
                  · exact ⟨h4, h5.2⟩
                  · obtain ⟨x, r, h6, _⟩ := h5.head_hex; cases h6
                · rintro ⟨h4, h5⟩; exact ⟨h4, .inl ⟨rfl, h5⟩⟩
              by_cases h14 : i = 14
              · subst h14
                refine ⟨none, by simp [finish6], fun out => ⟨fun h => (by cases h), ?_⟩⟩
                simp only [Res, Res1, hE']
                rintro (⟨gs, h, _⟩ | ⟨_, _, ⟨rfl, rfl⟩, h, _⟩)
                · exact absurd h (hG _)
                · simp at h
              · refine ⟨_, finish6_ell h2 (Nat.le_refl _) (by omega), fun out => ?_⟩
                simp only [Res, Res1, hE', h3]
                constructor
                · intro h; cases h
                  refine .inr ⟨[v], [], ⟨rfl, rfl⟩, by simp; omega, ?_⟩
                  rw [show (ip.take i ++ [UInt8.ofNat (v / 256), UInt8.ofNat (v % 256)]).drop (i + 2) = [] by
                    rw [List.drop_eq_nil_of_le]; simp; omega]
                  simp [groupBytes]
                · rintro (⟨gs, h, _⟩ | ⟨_, _, ⟨rfl, rfl⟩, _, h⟩)
                  · exact absurd h (hG _)
                  · rw [h]
                    rw [show (ip.take i ++ [UInt8.ofNat (v / 256), UInt8.ofNat (v % 256)]).drop (i + 2) = [] by
                      rw [List.drop_eq_nil_of_le]; simp; omega]
                    simp [groupBytes]
            | cons z r =>
              simp only [List.length_cons, Nat.succ_ne_zero, if_false]
              obtain ⟨r', h4, h5⟩ := ih (i + 2) (z :: r) (some (i + 2)) ip' (by omega) (by omega) (by omega)
                (by simp) h2 (fun e he => by cases he; exact Nat.le_refl _)
              refine ⟨r', h4, fun out => ?_⟩
              rw [h5]
              simp only [Res, Res1, Res2, hE, h3]
              have hnil : (ip.take i ++ [UInt8.ofNat (v / 256), UInt8.ofNat (v % 256)]).drop (i + 2) = [] := by
                rw [List.drop_eq_nil_of_le]; simp; omega
              rw [hnil]
              constructor
              · rintro ⟨gs, h6, h7, h8⟩
                refine .inr ⟨[v], gs, ⟨rfl, .inr h6⟩, by simp; omega, ?_⟩
                rw [h8]
                simp only [List.length_cons, List.length_nil]
                rw [show i + 2 * (0 + 1 + gs.length) = i + 2 + 2 * gs.length by omega]
                simp [groupBytes]
              · rintro (⟨gs, h, _⟩ | ⟨_, rg, ⟨rfl, h6⟩, h7, h8⟩)
                · exact absurd h (hG _)
                · rcases h6 with h6 | h6
                  · cases h6.1
                  · refine ⟨rg, h6, by simp at h7; omega, ?_⟩
                    rw [h8]
                    simp only [List.length_cons, List.length_nil]
                    rw [show i + 2 * (0 + 1 + rg.length) = i + 2 + 2 * rg.length by omega]
                    simp [groupBytes]

end Verif.IPAddr
