import Verif.Lemmas.IP6b
/-! Lemmas about masks, networks and `ParseCIDR`. -/
set_option linter.unusedSimpArgs false
namespace Verif.IPAddr

theorem natOf_lt (s : Bytes) : natOf s < 256 ^ s.length := by
  induction s with
  | nil => decide
  | cons x s ih =>
    simp only [natOf, List.length_cons, Nat.pow_succ]
    have hx := x.toNat_lt
    have : x.toNat * 256 ^ s.length ≤ 255 * 256 ^ s.length := Nat.mul_le_mul_right _ (by omega)
    omega

theorem natOf_inj : ∀ {s t : Bytes}, s.length = t.length → natOf s = natOf t → s = t := by
  intro s
  induction s with
  | nil => intro t h _; cases t with
    | nil => rfl
    | cons => simp at h
  | cons x s ih =>
    intro t h hn
    cases t with
    | nil => simp at h
    | cons y t =>
      simp only [List.length_cons, Nat.add_right_cancel_iff] at h
      simp only [natOf, h] at hn
      have h1 := natOf_lt s
      have h2 := natOf_lt t
      rw [h] at h1
      have hp : 0 < 256 ^ t.length := Nat.pow_pos (by decide)
      have hd : (x.toNat * 256 ^ t.length + natOf s) / 256 ^ t.length =
          (y.toNat * 256 ^ t.length + natOf t) / 256 ^ t.length := by rw [hn]
      rw [Nat.mul_comm x.toNat, Nat.mul_comm y.toNat, Nat.mul_add_div hp, Nat.mul_add_div hp,
        Nat.div_eq_of_lt h1, Nat.div_eq_of_lt h2, Nat.add_zero, Nat.add_zero] at hd
      rw [hd] at hn
      have : natOf s = natOf t := by omega
      rw [ih h this, UInt8.toNat_inj.mp hd]

theorem IsNet.unique {a n net mask net' mask'} (h : IsNet a n net mask) (h' : IsNet a n net' mask') :
    net = net' ∧ mask = mask' :=
  ⟨natOf_inj (h.netLen.trans h'.netLen.symm) (h.net.trans h'.net.symm),
   natOf_inj (h.maskLen.trans h'.maskLen.symm) (h.mask.trans h'.mask.symm)⟩

theorem cidrMask_len : ∀ l n, (cidrMask n l).length = l := by
  intro l
  induction l with
  | zero => intro n; rfl
  | succ l ih => intro n; rw [cidrMask]; split <;> simp [ih]

theorem mask_byte : ∀ n < 8, ∀ x < 256,
    (UInt8.ofNat x &&& ~~~ (UInt8.ofNat (255 / 2 ^ n))).toNat = x / 2 ^ (8 - n) * 2 ^ (8 - n) := by
  decide +kernel

theorem mask_byte' : ∀ n < 8, (~~~ (UInt8.ofNat (255 / 2 ^ n))).toNat = 256 - 2 ^ (8 - n) := by
  decide +kernel

theorem and_ff (x : UInt8) : x &&& 0xff = x := by
  obtain ⟨n, hn, rfl⟩ := u8_cases x
  have : ∀ n < 256, UInt8.ofNat n &&& 0xff = UInt8.ofNat n := by decide +kernel
  exact this n hn

theorem mask_byte_u8 {n : Nat} (hn : n < 8) (x : UInt8) :
    (x &&& ~~~ (UInt8.ofNat (255 / 2 ^ n))).toNat = x.toNat / 2 ^ (8 - n) * 2 ^ (8 - n) := by
  have := mask_byte n hn x.toNat x.toNat_lt
  rwa [UInt8.ofNat_toNat] at this

theorem pow256 (l : Nat) : 256 ^ l = 2 ^ (8 * l) := by
  rw [show 256 = 2 ^ 8 by rfl, ← Nat.pow_mul]

theorem mask_net : ∀ l n (ip : Bytes), ip.length = l → n ≤ 8 * l →
    natOf (List.zipWith (· &&& ·) ip (cidrMask n l)) =
      natOf ip / 2 ^ (8 * l - n) * 2 ^ (8 * l - n) := by
  intro l
  induction l with
  | zero => intro n ip h hn; cases ip with
    | nil => simp [cidrMask, natOf]
    | cons => simp at h
  | succ l ih =>
    intro n ip h hn
    cases ip with
    | nil => simp at h
    | cons x s =>
      simp only [List.length_cons, Nat.add_right_cancel_iff] at h
      rw [cidrMask]
      by_cases h8 : n ≥ 8
      · rw [if_pos h8]
        simp only [List.zipWith_cons_cons, natOf, List.length_zipWith, h, cidrMask_len, Nat.min_self,
          and_ff, ih (n - 8) s h (by omega)]
        rw [show 8 * l - (n - 8) = 8 * (l + 1) - n by omega]
        generalize hk : 8 * (l + 1) - n = k
        have hdiv : 256 ^ l = 2 ^ k * 2 ^ (8 * l - k) := by
          rw [pow256, ← Nat.pow_add]; congr 1; omega
        rw [hdiv, Nat.mul_left_comm, Nat.mul_add_div (Nat.pow_pos (by decide)), Nat.add_mul]
        congr 1
        rw [Nat.mul_comm]
      · rw [if_neg h8]
        simp only [List.zipWith_cons_cons, natOf, List.length_zipWith, h, cidrMask_len, Nat.min_self,
          mask_byte_u8 (by omega : n < 8), ih 0 s h (by omega)]
        have hlt : natOf s < 2 ^ (8 * l) := by have := natOf_lt s; rwa [h, pow256] at this
        rw [Nat.sub_zero, Nat.div_eq_of_lt hlt, pow256,
          show 8 * (l + 1) - n = 8 * l + (8 - n) by omega, Nat.pow_add, ← Nat.div_div_eq_div_mul,
          Nat.mul_comm x.toNat, Nat.mul_add_div (Nat.pow_pos (by decide)), Nat.div_eq_of_lt hlt]
        rw [Nat.zero_mul, Nat.add_zero, Nat.add_zero, Nat.mul_assoc, Nat.mul_comm (2 ^ (8 - n))]

theorem mask_val : ∀ l n, n ≤ 8 * l → natOf (cidrMask n l) = 2 ^ (8 * l) - 2 ^ (8 * l - n) := by
  intro l
  induction l with
  | zero => intro n hn; simp [cidrMask, natOf]
  | succ l ih =>
    intro n hn
    rw [cidrMask]
    have e1 : 2 ^ (8 * (l + 1)) = 256 * 2 ^ (8 * l) := by
      rw [Nat.mul_add, Nat.pow_add, Nat.mul_comm]
    by_cases h8 : n ≥ 8
    · rw [if_pos h8]
      simp only [natOf, cidrMask_len, ih (n - 8) (by omega), pow256]
      rw [show 8 * l - (n - 8) = 8 * (l + 1) - n by omega, e1]
      have : 2 ^ (8 * (l + 1) - n) ≤ 2 ^ (8 * l) := Nat.pow_le_pow_right (by decide) (by omega)
      have h255 : (255 : UInt8).toNat = 255 := rfl
      rw [h255]
      omega
    · rw [if_neg h8]
      simp only [natOf, cidrMask_len, ih 0 (by omega), pow256, mask_byte' n (by omega)]
      rw [show 8 * (l + 1) - n = (8 - n) + 8 * l by omega, e1, Nat.pow_add, Nat.sub_mul]
      simp

/-! ## `ParseCIDR` -/

theorem indexByte_none (c : UInt8) (s : Bytes) : ∀ i, c ∉ s → indexByteLoop c i s = none := by
  induction s with
  | nil => intro i _; rfl
  | cons x s ih =>
    intro i h
    simp only [List.mem_cons, not_or] at h
    rw [indexByteLoop, if_neg (Ne.symm h.1)]
    exact ih _ h.2

theorem indexByte_some (c : UInt8) (r : Bytes) (p : Bytes) : ∀ i, c ∉ p →
    indexByteLoop c i (p ++ c :: r) = some (i + p.length) := by
  induction p with
  | nil => intro i _; simp [indexByteLoop]
  | cons x s ih =>
    intro i h
    simp only [List.mem_cons, not_or] at h
    rw [List.cons_append, indexByteLoop, if_neg (Ne.symm h.1), ih _ h.2]
    simp; omega

theorem split_first (c : UInt8) (s : Bytes) : c ∉ s ∨ ∃ p r, c ∉ p ∧ s = p ++ c :: r := by
  induction s with
  | nil => left; simp
  | cons x s ih =>
    by_cases h : x = c
    · right; exact ⟨[], s, by simp, by simp [h]⟩
    · rcases ih with ih | ⟨p, r, h1, rfl⟩
      · left; simp [Ne.symm h, ih]
      · right; exact ⟨x :: p, r, by simp [Ne.symm h, h1], rfl⟩

theorem split_unique {c : UInt8} {p r p' r' : Bytes} (h : c ∉ p) (h' : c ∉ p')
    (he : p ++ c :: r = p' ++ c :: r') : p = p' ∧ r = r' := by
  have h1 := indexByte_some c r p 0 h
  have h2 := indexByte_some c r' p' 0 h'
  rw [he, h2] at h1
  have hl : p.length = p'.length := by have := Option.some.inj h1; omega
  obtain ⟨h3, h4⟩ := List.append_inj he hl
  cases h4; exact ⟨h3, rfl⟩

theorem quad_no_slash {s o} (h : Quad s o) : (47 : UInt8) ∉ s := by
  obtain ⟨t0, t1, t2, t3, v0, v1, v2, v3, h0, h1, h2, h3, rfl, _⟩ := h
  simp [not_mem_dec h0.1, not_mem_dec h1.1, not_mem_dec h2.1, not_mem_dec h3.1]

theorem hexgroups_no_slash {s gs} (h : HexGroups s gs) : (47 : UInt8) ∉ s := by
  induction h with
  | one h => exact (not_mem_hex h.1).2.2
  | cons h _ ih => simp [(not_mem_hex h.1).2.2, ih]

theorem groups_no_slash {s gs} (h : Groups s gs) : (47 : UInt8) ∉ s := by
  induction h with
  | one h => exact (not_mem_hex h.1).2.2
  | quad h => exact quad_no_slash h
  | cons h _ ih => simp [(not_mem_hex h.1).2.2, ih]

theorem ipv6_no_slash {s gs} (h : IPv6Text s gs) : (47 : UInt8) ∉ s := by
  cases h with
  | full h _ => exact groups_no_slash h
  | @ellipsis l r _ _ hl hr _ =>
    have h1 : (47 : UInt8) ∉ l := by
      rcases hl with ⟨h, _⟩ | h
      · exact h ▸ List.not_mem_nil
      · exact hexgroups_no_slash h
    have h2 : (47 : UInt8) ∉ r := by
      rcases hr with ⟨h, _⟩ | h
      · exact h ▸ List.not_mem_nil
      · exact groups_no_slash h
    simp [h1, h2]

theorem dtoi_ok {s v c} : gLoop decDigit 10 0 0 s = some (v, c) ↔
    (dtoi s).ok = true ∧ (dtoi s).n = v ∧ (dtoi s).i = c := by
  rw [← dtoi_g s, Num.val]
  split
  · rename_i h; simp [h]
  · rename_i h; simp [h]

theorem stops_nil_dec : Stops decDigit [] := by intro y r hy; cases hy

/-- The mask length text. -/
theorem dtoi_all {m : Bytes} {w : Nat} (hw : w < big) :
    (dtoi m).ok = true ∧ (dtoi m).i = m.length ∧ (dtoi m).n ≤ w ↔
    ∃ n, Numeral IsDec 10 m n ∧ n ≤ w := by
  constructor
  · rintro ⟨h1, h2, h3⟩
    obtain ⟨t, rest, he, h4, h5, _, _⟩ := (decScan_iff _ _ _).mp (dtoi_ok.mpr ⟨h1, rfl, h2⟩)
    have : rest = [] := by
      have := congrArg List.length he
      simp at this
      exact List.length_eq_zero_iff.mp (by omega)
    subst this
    rw [List.append_nil] at he
    subst he
    exact ⟨_, h4, h3⟩
  · rintro ⟨n, h1, h2⟩
    obtain ⟨h3, h4, h5⟩ := dtoi_ok.mp ((decScan_iff m n m.length).mpr
      ⟨m, [], by simp, h1, rfl, by omega, stops_nil_dec⟩)
    exact ⟨h3, h5, by omega⟩

theorem dtoi_val {m : Bytes} {n : Nat} (h : Numeral IsDec 10 m n) (hn : n < big) :
    (dtoi m).ok = true ∧ (dtoi m).n = n ∧ (dtoi m).i = m.length :=
  dtoi_ok.mp ((decScan_iff m n m.length).mpr ⟨m, [], by simp, h, rfl, hn, stops_nil_dec⟩)

theorem isNet_of_mask {a : Bytes} {n l : Nat} (hl : a.length = l) (hn : n ≤ 8 * l) :
    IsNet a n (List.zipWith (· &&& ·) a (cidrMask n l)) (cidrMask n l) := by
  subst hl
  exact ⟨hn, by simp [cidrMask_len], cidrMask_len _ _, mask_net _ _ _ rfl hn, mask_val _ _ hn⟩

theorem ipv6_len {s gs} (h : IPv6Text s gs) : gs.length = 8 := by
  cases h with
  | full _ h => exact h
  | ellipsis _ _ h => simp; omega

theorem quad_not_ipv6 {s o gs} (h : Quad s o) (h' : IPv6Text s gs) : False := by
  cases firstSep_unique (quad_sep h) (ipv6_sep h')

theorem ipMask4 {o : List Nat} {x y z w : Nat} (ho : o = [x, y, z, w]) (n : Nat) :
    ipMask (mappedPrefix ++ o.map UInt8.ofNat) (cidrMask n 4) =
      some (List.zipWith (· &&& ·) (o.map UInt8.ofNat) (cidrMask n 4)) := by
  subst ho
  simp [ipMask, cidrMask_len, mappedPrefix]

theorem ipMask6 {a : Bytes} (ha : a.length = 16) (n : Nat) :
    ipMask a (cidrMask n 16) = some (List.zipWith (· &&& ·) a (cidrMask n 16)) := by
  simp [ipMask, cidrMask_len, ha]

theorem parseCIDR_iff (s : Bytes) : ∃ r, parseCIDR s = some r ∧ ∀ ip net, r = some (ip, net) ↔
    ∃ a n nb, CIDRText s a ip n ∧ net.ip = some nb ∧ IsNet a n nb net.mask := by
  rcases split_first 47 s with hs | ⟨t, m, ht, rfl⟩
  · refine ⟨none, by simp [parseCIDR, indexByteString, indexByte_none _ _ _ hs], fun ip net => ⟨fun h => (by cases h), ?_⟩⟩
    rintro ⟨a, n, nb, h, _⟩
    cases h with
    | v4 _ _ he => subst he; simp at hs
    | v6 _ _ he => subst he; simp at hs
  · have hC : ∀ a ip n, CIDRText (t ++ 47 :: m) a ip n ↔ Numeral IsDec 10 m n ∧
        ((∃ o, Quad t o ∧ a = o.map UInt8.ofNat ∧ ip = mappedPrefix ++ o.map UInt8.ofNat) ∨
         (∃ gs, IPv6Text t gs ∧ a = groupBytes gs ∧ ip = groupBytes gs)) := by
      intro a ip n
      constructor
      · intro h
        cases h with
        | v4 h1 h2 h3 =>
          obtain ⟨rfl, rfl⟩ := split_unique ht (quad_no_slash h1) h3
          exact ⟨h2, .inl ⟨_, h1, rfl, rfl⟩⟩
        | v6 h1 h2 h3 =>
          obtain ⟨rfl, rfl⟩ := split_unique ht (ipv6_no_slash h1) h3
          exact ⟨h2, .inr ⟨_, h1, rfl, rfl⟩⟩
      · rintro ⟨h2, ⟨o, h1, rfl, rfl⟩ | ⟨gs, h1, rfl, rfl⟩⟩
        · exact .v4 h1 h2 rfl
        · exact .v6 h1 h2 rfl
    obtain ⟨r4, h1, h2⟩ := parseIPv4_iff t
    obtain ⟨r6, h3, h4⟩ := parseIPv6_iff t
    unfold parseCIDR
    rw [indexByteString, indexByte_some _ _ _ _ ht]
    dsimp only
    rw [if_neg (by simp), Nat.zero_add, List.take_left,
      show (t ++ 47 :: m).drop (t.length + 1) = m by
        rw [← List.drop_drop, List.drop_left]; rfl, h1]
    dsimp only
    have key : ∀ a ip l, a.length = l → 8 * l < big → ipMask ip (cidrMask (dtoi m).n l) = some
        (List.zipWith (· &&& ·) a (cidrMask (dtoi m).n l)) →
        (∀ a' ip', (∃ o, Quad t o ∧ a' = o.map UInt8.ofNat ∧ ip' = mappedPrefix ++ o.map UInt8.ofNat) ∨
         (∃ gs, IPv6Text t gs ∧ a' = groupBytes gs ∧ ip' = groupBytes gs) ↔ a' = a ∧ ip' = ip) →
        ∃ r : Option (Bytes × IPNet), (if (!(dtoi m).ok || decide ((dtoi m).i ≠ m.length) || decide ((dtoi m).n > 8 * l)) = true then
          some none
        else some (some (ip, (⟨ipMask ip (cidrMask (dtoi m).n l), cidrMask (dtoi m).n l⟩ : IPNet)))) = some r ∧
        ∀ ip net, r = some (ip, net) ↔
          ∃ a n nb, CIDRText (t ++ 47 :: m) a ip n ∧ net.ip = some nb ∧ IsNet a n nb net.mask := by
      intro a ip l hl hbig hmask hA
      have hd := dtoi_all (m := m) hbig
      by_cases hc : (dtoi m).ok = true ∧ (dtoi m).i = m.length ∧ (dtoi m).n ≤ 8 * l
      · rw [if_neg (by simp [hc])]
        refine ⟨_, rfl, fun ip' net => ?_⟩
        obtain ⟨n, hn1, hn2⟩ := hd.mp hc
        have hn : (dtoi m).n = n := (dtoi_val hn1 (by omega)).2.1
        rw [hmask, hn]
        have hnet := isNet_of_mask hl hn2
        constructor
        · intro h
          simp only [Option.some.injEq, Prod.mk.injEq] at h
          obtain ⟨rfl, rfl⟩ := h
          exact ⟨a, n, _, (hC _ _ _).mpr ⟨hn1, (hA _ _).mpr ⟨rfl, rfl⟩⟩, rfl, hnet⟩
        · rintro ⟨a', n', nb, h5, h6, h7⟩
          obtain ⟨h8, h9⟩ := (hC _ _ _).mp h5
          obtain ⟨rfl, rfl⟩ := (hA _ _).mp h9
          have : n' = n := by
            have hle := h7.le
            rw [hl] at hle
            rw [← hn]; exact ((dtoi_val h8 (by omega)).2.1).symm
          subst this
          obtain ⟨h10, h11⟩ := h7.unique hnet
          cases net
          simp_all
      · rw [if_pos (by
          simp only [Bool.or_eq_true, Bool.not_eq_true', decide_eq_true_eq]
          by_cases ho : (dtoi m).ok = true
          · by_cases hi : (dtoi m).i = m.length
            · right
              have : ¬ (dtoi m).n ≤ 8 * l := fun h => hc ⟨ho, hi, h⟩
              omega
            · exact .inl (.inr hi)
          · exact .inl (.inl (by simpa using ho)))]
        refine ⟨none, rfl, fun ip' net => ⟨fun h => (by cases h), ?_⟩⟩
        rintro ⟨a', n', nb, h5, h6, h7⟩
        obtain ⟨h8, h9⟩ := (hC _ _ _).mp h5
        obtain ⟨rfl, rfl⟩ := (hA _ _).mp h9
        exact absurd (hd.mpr ⟨n', h8, hl ▸ h7.le⟩) hc
    cases r4 with
    | some ip =>
      obtain ⟨o, ho, rfl⟩ := (h2 ip).mp rfl
      dsimp only
      obtain ⟨x, y, z, w, rfl⟩ := quad_four ho
      refine key _ _ 4 rfl (by decide) (ipMask4 rfl _) ?_
      intro a' ip'
      constructor
      · rintro (⟨o', h5, rfl, rfl⟩ | ⟨gs, h5, _⟩)
        · have := Option.some.inj ((h2 _).mpr ⟨o', h5, rfl⟩)
          exact ⟨(List.append_cancel_left this).symm, this.symm⟩
        · exact (quad_not_ipv6 ho h5).elim
      · rintro ⟨rfl, rfl⟩; exact .inl ⟨_, ho, rfl, rfl⟩
    | none =>
      have hnq : ∀ o, ¬ Quad t o := fun o ho => by
        have := (h2 _).mpr ⟨o, ho, rfl⟩; cases this
      dsimp only
      rw [h3]
      cases r6 with
      | none =>
        refine ⟨none, rfl, fun ip net => ⟨fun h => (by cases h), ?_⟩⟩
        rintro ⟨a, n, nb, h, _⟩
        obtain ⟨_, ⟨o, h5, _⟩ | ⟨gs, h5, _⟩⟩ := (hC _ _ _).mp h
        · exact absurd h5 (hnq o)
        · have := (h4 _).mpr ⟨gs, h5, rfl⟩; cases this
      | some ip =>
        obtain ⟨gs, hg, rfl⟩ := (h4 ip).mp rfl
        have hlen : (groupBytes gs).length = 16 := by rw [groupBytes_len, ipv6_len hg]
        dsimp only [Option.map_some]
        refine key _ _ 16 hlen (by decide) (ipMask6 hlen _) ?_
        intro a' ip'
        constructor
        · rintro (⟨o', h5, _⟩ | ⟨gs', h5, rfl, rfl⟩)
          · exact absurd h5 (hnq _)
          · have := Option.some.inj ((h4 _).mpr ⟨gs', h5, rfl⟩)
            exact ⟨this.symm, this.symm⟩
        · rintro ⟨rfl, rfl⟩; exact .inr ⟨_, hg, rfl, rfl⟩

/-! ## Printing -/

theorem decText_num (n : Nat) : Numeral IsDec 10 (decText n) n := by
  induction n using Nat.strongRecOn with
  | _ n ih =>
    rw [decText]
    split
    · rename_i h; exact .one ⟨h, rfl⟩
    · rename_i h
      have := Numeral.snoc (dig := IsDec) (ih (n / 10) (by omega)) (d := n % 10)
        (c := UInt8.ofNat (48 + n % 10)) ⟨by omega, rfl⟩
      rwa [show n / 10 * 10 + n % 10 = n by omega] at this

theorem hexChar_hex {d : Nat} (h : d < 16) : IsHex (hexChar d) d := by
  simp only [hexChar, IsHex]
  split
  · rename_i h; exact .inl ⟨h, rfl⟩
  · exact .inr ⟨by omega, h, .inl rfl⟩

theorem hexText_num (n : Nat) : Numeral IsHex 16 (hexText n) n := by
  induction n using Nat.strongRecOn with
  | _ n ih =>
    rw [hexText]
    split
    · rename_i h; exact .one (hexChar_hex h)
    · rename_i h
      have := Numeral.snoc (dig := IsHex) (ih (n / 16) (by omega)) (d := n % 16)
        (c := hexChar (n % 16)) (hexChar_hex (by omega))
      rwa [show n / 16 * 16 + n % 16 = n by omega] at this

theorem hexgroups_text : ∀ gs : List Nat, gs ≠ [] → (∀ g ∈ gs, g ≤ 0xFFFF) →
    HexGroups (joinWith 58 (gs.map hexText)) gs := by
  intro gs
  induction gs with
  | nil => intro h; exact absurd rfl h
  | cons g gs ih =>
    intro _ h
    cases gs with
    | nil => exact .one ⟨hexText_num g, h g (by simp)⟩
    | cons g' gs =>
      exact .cons ⟨hexText_num g, h g (by simp)⟩ (ih (by simp) (fun x hx => h x (by simp [hx])))

theorem HexGroups.groups {s gs} (h : HexGroups s gs) : Groups s gs := by
  induction h with
  | one h => exact .one h
  | cons h _ ih => exact .cons h ih

end Verif.IPAddr
