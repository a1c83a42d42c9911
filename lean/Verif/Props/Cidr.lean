import Verif.Lemmas.Cidr
/-! Properties C17-C19 and C27: the cidr functions. -/
set_option linter.unusedSimpArgs false
namespace Verif.Cidr

/-! ## C18 (and the exact behaviour of cidrsubnets) -/

/-- Exact behaviour of `cidrsubnets`: it succeeds iff every newbits is an integer in 1..32
that fits the address width, the sequential aligned allocation stays inside the prefix, no
allocated start is the zero address, and none meets the IPv4-mapped range of IPv6 (nor
follows it immediately); then the result is that allocation. -/
theorem C18_exact {s : Bytes} {len a n : Nat} (h : PrefixText s len a n)
    (args : List (Option Int)) (out : List Net) :
    withPrefix s (cidrSubnets · args) = .ok out ↔
      (¬ (len = 16 ∧ a / 2 ^ 32 = 0xffff) ∨ args = []) ∧
      ∃ bs : List Nat, args = bs.map (fun e : Nat => some (e : Int)) ∧
        (∀ e ∈ bs, 1 ≤ e ∧ e ≤ 32 ∧ n + e ≤ 8 * len) ∧
        (∀ st q, (st, q) ∈ allocate (8 * len) n a bs →
          st + 2 ^ (8 * len - q) ≤ a + 2 ^ (8 * len - n) ∧ st ≠ 0 ∧
          ¬ (len = 16 ∧ mappedLo ≤ st ∧ st ≤ 2 ^ 48)) ∧
        out = (allocate (8 * len) n a bs).map fun x => ⟨⟨len, x.1⟩, ⟨8 * len, x.2⟩⟩ := by
  obtain ⟨h1, hw, hb⟩ := withPrefix_eq h (cidrSubnets · args)
  rw [h1]
  by_cases hm : Mapped len a
  · obtain ⟨rfl, hm2⟩ := hm
    rw [cidrSubnets_mapped hb ⟨rfl, hm2⟩]
    constructor
    · intro h2
      split at h2
      · rename_i h3
        obtain rfl := Except.ok.inj h2
        exact ⟨.inr h3, [], by simpa using h3, by simp, by simp [allocate], rfl⟩
      · cases h2
    · rintro ⟨h2 | h2, bs, h3, _, _, h4⟩
      · exact absurd ⟨rfl, hm2⟩ h2
      · have : bs = [] := by simpa [h2] using h3.symm
        subst this
        rw [if_pos h2, h4]; rfl
  · rw [cidrSubnets_iff hw hb hm]
    constructor
    · rintro ⟨bs, h2, h3, h4, h5⟩
      refine ⟨.inl hm, bs, h2, h3, ?_, h5⟩
      intro st q hst
      obtain ⟨h6, h7, h8⟩ := h4 st q hst
      exact ⟨h8, h6.1, h6.2⟩
    · rintro ⟨_, bs, h2, h3, h4, h5⟩
      refine ⟨bs, h2, h3, ?_, h5⟩
      intro st q hst
      obtain ⟨h6, h7, h8⟩ := h4 st q hst
      exact ⟨⟨h7, h8⟩, allocate_ge bs a st q hst, h6⟩

example : withPrefix (b "10.0.0.0/8") (cidrSubnets · [some 4, some 8, some 4]) =
    .ok [⟨⟨4, 0x0a000000⟩, ⟨32, 12⟩⟩, ⟨⟨4, 0x0a100000⟩, ⟨32, 16⟩⟩, ⟨⟨4, 0x0a200000⟩, ⟨32, 12⟩⟩] := by
  decide +kernel

/-- The full statement of C18. -/
def FitsSucceeds : Prop :=
  ∀ (s : Bytes) (len a n : Nat) (bs : List Nat), PrefixText s len a n →
    (∀ e ∈ bs, 1 ≤ e ∧ e ≤ 32 ∧ n + e ≤ 8 * len) →
    (∀ st q, (st, q) ∈ allocate (8 * len) n a bs →
      st + 2 ^ (8 * len - q) ≤ a + 2 ^ (8 * len - n)) →
    ∃ out, withPrefix s (cidrSubnets · (bs.map fun e : Nat => some (e : Int))) = .ok out

/-- Every successfully parsed prefix has a `PrefixText`. -/
theorem prefixText_of_parse {s : Bytes} (h : ∃ x, withPrefix s (fun t => .ok t) = .ok x) :
    ∃ len a n, PrefixText s len a n ∧ withPrefix s (fun t => .ok t) = .ok ⟨⟨len, a⟩, ⟨8 * len, n⟩⟩ := by
  by_cases hex : ∃ len a n, PrefixText s len a n
  · obtain ⟨len, a, n, hp⟩ := hex
    exact ⟨len, a, n, hp, (withPrefix_eq hp _).1⟩
  · obtain ⟨x, hx⟩ := h
    rw [withPrefix_err (fun len a n hp => hex ⟨len, a, n, hp⟩)] at hx
    cases hx

theorem prefixText_eq {s : Bytes} {len a n : Nat}
    (h : withPrefix s (fun t => .ok t) = .ok ⟨⟨len, a⟩, ⟨8 * len, n⟩⟩) : PrefixText s len a n := by
  obtain ⟨len', a', n', h1, h2⟩ := prefixText_of_parse ⟨_, h⟩
  rw [h] at h2
  cases h2; exact h1

/-- It is false: `cidrsubnets("0.0.0.0/8", 4)` fails although the subnet `0.0.0.0/12` fits. -/
theorem C18_zero_prefix_fails : ¬ FitsSucceeds := by
  intro h
  have hp : PrefixText (b "0.0.0.0/8") 4 0 8 := prefixText_eq (by decide +kernel)
  obtain ⟨out, ho⟩ := h _ 4 0 8 [4] hp (by simp) (by
    intro st q hst
    simp only [allocate, List.mem_singleton, Prod.mk.injEq] at hst
    obtain ⟨rfl, rfl⟩ := hst
    decide)
  have : withPrefix (b "0.0.0.0/8") (cidrSubnets · ([4].map fun e : Nat => some (e : Int))) =
      .error .err := by decide +kernel
  rw [this] at ho
  cases ho

/-- It also fails for an IPv6 prefix that starts right after the IPv4-mapped range:
`cidrsubnets("0:0:0:0:1::/80", 4)`. -/
theorem C18_after_mapped_fails : PrefixText (b "0:0:0:0:1::/80") 16 (2 ^ 48) 80 ∧
    allocate 128 80 (2 ^ 48) [4] = [(2 ^ 48, 84)] ∧
    withPrefix (b "0:0:0:0:1::/80") (cidrSubnets · [some 4]) = .error .err :=
  ⟨prefixText_eq (by decide +kernel), by decide +kernel, by decide +kernel⟩

/-- C18 for every IPv4 prefix other than those at 0.0.0.0, and every IPv6 prefix other than
those at `::`, that lies before or after (not immediately after) the IPv4-mapped range.
Missing: the prefixes refuted above. -/
theorem C18_fits_succeeds_partial {s : Bytes} {len a n : Nat} {bs : List Nat}
    (h : PrefixText s len a n) (ha : a ≠ 0)
    (hmap : len = 16 → a + 2 ^ (8 * len - n) ≤ mappedLo ∨ 2 ^ 48 < a)
    (hv : ∀ e ∈ bs, 1 ≤ e ∧ e ≤ 32 ∧ n + e ≤ 8 * len)
    (hf : ∀ st q, (st, q) ∈ allocate (8 * len) n a bs →
      st + 2 ^ (8 * len - q) ≤ a + 2 ^ (8 * len - n)) :
    withPrefix s (cidrSubnets · (bs.map fun e : Nat => some (e : Int))) =
      .ok ((allocate (8 * len) n a bs).map fun x => ⟨⟨len, x.1⟩, ⟨8 * len, x.2⟩⟩) := by
  refine (C18_exact h _ _).mpr ⟨.inl ?_, bs, rfl, hv, ?_, rfl⟩
  · rintro ⟨h1, h2⟩
    rw [mapped_iff] at h2
    have := two_pow_pos (8 * len - n)
    rcases hmap h1 with h3 | h3 <;> omega
  · intro st q hst
    have h1 := hf st q hst
    have h2 := allocate_ge bs a st q hst
    refine ⟨h1, by omega, ?_⟩
    rintro ⟨h3, h4, h5⟩
    have := two_pow_pos (8 * len - q)
    rcases hmap h3 with h6 | h6 <;> omega

example : PrefixText (b "fd00::/48") 16 (0xfd00 * 2 ^ 112) 48 := prefixText_eq (by decide +kernel)
example : ∀ st q, (st, q) ∈ allocate 128 48 (0xfd00 * 2 ^ 112) [4, 16, 8] →
    st + 2 ^ (128 - q) ≤ 0xfd00 * 2 ^ 112 + 2 ^ (128 - 48) := by
  intro st q h
  have he : allocate 128 48 (0xfd00 * 2 ^ 112) [4, 16, 8] =
    [(0xfd00 * 2 ^ 112, 52), (0xfd00 * 2 ^ 112 + 2 ^ 76, 64), (0xfd00 * 2 ^ 112 + 2 ^ 76 + 2 ^ 72, 56)] := by
    decide +kernel
  rw [he] at h
  simp only [List.mem_cons, Prod.mk.injEq, List.not_mem_nil, or_false] at h
  rcases h with ⟨rfl, rfl⟩ | ⟨rfl, rfl⟩ | ⟨rfl, rfl⟩ <;> decide

/-- Invalid text is an error, and no argument makes `cidrsubnets` panic. -/
theorem C18_no_panic (s : Bytes) (args : List (Option Int)) :
    withPrefix s (cidrSubnets · args) ≠ .error .panic := by
  by_cases hex : ∃ len a n, PrefixText s len a n
  · obtain ⟨len, a, n, hp⟩ := hex
    obtain ⟨h1, hw, hb⟩ := withPrefix_eq hp (cidrSubnets · args)
    rw [h1]
    by_cases hm : Mapped len a
    · obtain ⟨rfl, hm2⟩ := hm
      rw [cidrSubnets_mapped hb ⟨rfl, hm2⟩]
      split <;> simp
    · match args with
      | [] => simp [cidrSubnets]
      | none :: args => simp [cidrSubnets]
      | some e :: args =>
        simp only [cidrSubnets]
        by_cases hv : 1 ≤ e ∧ e ≤ 32 ∧ e + n ≤ 8 * len
        · obtain ⟨d, rfl⟩ : ∃ d : Nat, e = d := ⟨e.toNat, by omega⟩
          have hq : n + d ≤ 8 * len := by omega
          have hprev : previousSubnet ⟨⟨len, a⟩, ⟨8 * len, n⟩⟩ ((d : Int) + (n : Int)) =
              ⟨⟨len, clearLow ((a + (2 ^ (8 * len) - 1)) % 2 ^ (8 * len)) (8 * len - (n + d))⟩,
                ⟨8 * len, n + d⟩⟩ := by
            simp only [previousSubnet, dec, checkIPv4_of hm]
            rw [show ((d : Int) + (n : Int)) = ((n + d : Nat) : Int) by omega, cidrMask_ok hw hq,
              applyMask_same hw]
          rw [hprev]
          refine subnetsLoop_no_panic hw hb hm _ _ _ hq ?_
          have h1 := clearLow_le ((a + (2 ^ (8 * len) - 1)) % 2 ^ (8 * len)) (8 * len - (n + d))
          have h2 := Nat.mod_lt (a + (2 ^ (8 * len) - 1)) (two_pow_pos (8 * len))
          omega
        · simp only [subnetsLoop]
          by_cases h1 : e < 1
          · simp [h1]
          rw [if_neg h1]
          by_cases h2 : e > 32
          · simp [h2]
          rw [if_neg h2, if_pos (by simp; omega)]
          simp
  · rw [withPrefix_err (fun len a n hp => hex ⟨len, a, n, hp⟩)]
    simp

/-! ## C17 -/

/-- Whenever `cidrsubnets` succeeds: one network per argument, with the requested prefix
length, inside the prefix, in increasing order and pairwise disjoint. -/
theorem C17_disjoint_inside {s : Bytes} {len a n : Nat} (h : PrefixText s len a n)
    {args : List (Option Int)} {out : List Net}
    (ho : withPrefix s (cidrSubnets · args) = .ok out) :
    out.length = args.length ∧
    (∀ (i : Nat) (t : Net), out[i]? = some t → ∃ e : Nat, args[i]? = some (some (e : Int)) ∧
      t.mask = ⟨8 * len, n + e⟩ ∧ t.ip.len = len ∧ SubBlock (8 * len) a n t.ip.n (n + e)) ∧
    out.Pairwise fun x y => x.ip.n + 2 ^ (8 * len - x.mask.ones) ≤ y.ip.n := by
  obtain ⟨_, bs, rfl, hv, hf, rfl⟩ := (C18_exact h _ _).mp ho
  refine ⟨by simp [allocate_length], ?_, ?_⟩
  · intro i t ht
    rw [List.getElem?_map] at ht
    obtain ⟨⟨st, q⟩, h1, rfl⟩ := Option.map_eq_some_iff.mp ht
    obtain ⟨e, h2, rfl, h3⟩ := allocate_get bs a i st q h1
    have hmem := List.mem_of_getElem? h1
    have hv' := hv e (List.mem_of_getElem? h2)
    refine ⟨e, by simp [h2], rfl, rfl, by omega, hv'.2.2, h3, allocate_ge bs a st _ hmem, (hf st _ hmem).1⟩
  · rw [List.pairwise_map]
    exact allocate_pairwise bs a

example : ∃ out, withPrefix (b "192.168.0.0/16") (cidrSubnets · [some 8, some 2, some 3]) = .ok out :=
  ⟨[⟨⟨4, 0xc0a80000⟩, ⟨32, 24⟩⟩, ⟨⟨4, 0xc0a84000⟩, ⟨32, 18⟩⟩, ⟨⟨4, 0xc0a88000⟩, ⟨32, 19⟩⟩], by decide +kernel⟩

/-! ## C19 -/

theorem or_add {a y k : Nat} (ha : 2 ^ k ∣ a) (hy : y < 2 ^ k) : a ||| y = a + y := by
  obtain ⟨c, rfl⟩ := ha
  rw [Nat.two_pow_add_eq_or_of_lt hy]

/-- The behaviour of `HostBig` once the number passes its test. -/
theorem hostBig_insert {len a n : Nat} (hw : Wide len) (hb : IsBase (8 * len) a n)
    (hm : ¬ Mapped len a) {y : Nat} (hy : y < 2 ^ (8 * len - n)) :
    insertNumIntoIP ⟨len, a⟩ (y : Int) (if (IP.to4 ⟨len, a⟩).isSome then 32 else 128) =
      .ok ⟨len, a + y⟩ := by
  have hbits : (if (IP.to4 ⟨len, a⟩).isSome then (32 : Int) else 128) = ((8 * len : Nat) : Int) := by
    rcases hw.h with rfl | rfl
    · simp [IP.to4]
    · have : (IP.to4 ⟨16, a⟩) = none := by
        simp only [IP.to4, IP.mapped]
        simp [Mapped] at hm
        simp [hm]
      simp [this]
  have hfits := hb.fits
  rw [hbits, insertNumIntoIP, if_neg (by have := hw.h; dsimp only; omega)]
  dsimp only
  have hsh : (8 * (len : Int) - ((8 * len : Nat) : Int)).toNat = 0 := by omega
  rw [hsh]
  have : ((y : Int) * 2 ^ 0) = Int.ofNat y := by simp
  rw [this]
  simp only [orAbs, or_add hb.aligned hy]
  rw [if_pos (by omega)]

/-- Host numbers count from the start of the prefix; negative ones from its end. -/
theorem C19_host_in_range {s : Bytes} {len a n : Nat} (h : PrefixText s len a n)
    (hm : ¬ (len = 16 ∧ a / 2 ^ 32 = 0xffff)) (y : Nat) (hy : y < 2 ^ (8 * len - n)) :
    withPrefix s (cidrHost · (some (y : Int))) = .ok ⟨len, a + y⟩ ∧
    withPrefix s (cidrHost · (some (-(y : Int) - 1))) =
      .ok ⟨len, a + (2 ^ (8 * len - n) - 1 - y)⟩ ∧
    a ≤ a + y ∧ a + y < a + 2 ^ (8 * len - n) := by
  obtain ⟨h1, hw, hb⟩ := withPrefix_eq h (cidrHost · (some (y : Int)))
  obtain ⟨h2, _, _⟩ := withPrefix_eq h (cidrHost · (some (-(y : Int) - 1)))
  rw [h1, h2]
  refine ⟨?_, ?_, by omega, by omega⟩
  · simp only [cidrHost, hostBig]
    simp only [show ¬ ((y : Int) < 0) by omega, if_false]
    rw [if_neg]
    · exact hostBig_insert hw hb hm hy
    · simp only [Int.toNat_natCast, lowInt64]
      have hle : (1 : Int) ≤ 2 ^ (8 * len - n) := by
        have := two_pow_pos (8 * len - n)
        have : ((2 ^ (8 * len - n) : Nat) : Int) = 2 ^ (8 * len - n) := by simp
        omega
      have hc : ((2 ^ (8 * len - n) : Nat) : Int) = 2 ^ (8 * len - n) := by simp
      split
      · rename_i hlt
        rcases Nat.lt_or_ge (8 * len - n) 64 with h64 | h64
        · have : 2 ^ (8 * len - n) ≤ 2 ^ 63 := Nat.pow_le_pow_right (by decide) (by omega)
          omega
        · have : 2 ^ 64 ≤ 2 ^ (8 * len - n) := Nat.pow_le_pow_right (by decide) h64
          omega
      · omega
  · simp only [cidrHost, hostBig]
    have hc : ((2 ^ (8 * len - n) : Nat) : Int) = 2 ^ (8 * len - n) := by simp
    simp only [show (-(y : Int) - 1 < 0) by omega, if_true]
    rw [if_neg (by omega)]
    have : (2 ^ (8 * len - n) - 1 - (-(-(y : Int) - 1) - 1) : Int) =
        ((2 ^ (8 * len - n) - 1 - y : Nat) : Int) := by omega
    rw [this]
    exact hostBig_insert hw hb hm (by omega)

example : withPrefix (b "10.12.112.0/20") (cidrHost · (some 16)) = .ok ⟨4, 0x0a0c7010⟩ ∧
    withPrefix (b "10.12.112.0/20") (cidrHost · (some (-1))) = .ok ⟨4, 0x0a0c7fff⟩ := by
  decide +kernel

/-- The full statement about host numbers out of range. -/
def HostOutOfRangeFails : Prop :=
  ∀ (s : Bytes) (len a n : Nat) (num : Int), PrefixText s len a n →
    num < -2 ^ (8 * len - n) ∨ 2 ^ (8 * len - n) ≤ num →
    ∀ p, withPrefix s (cidrHost · (some num)) ≠ .ok p

/-- It is false: `cidrhost("fd00::/120", 2^64)` returns an address outside the prefix,
because only the low 64 bits of the number are compared with the host range. -/
theorem C19_host_wraps : ¬ HostOutOfRangeFails := by
  intro h
  have hp : PrefixText (b "fd00::/120") 16 (0xfd00 * 2 ^ 112) 120 := prefixText_eq (by decide +kernel)
  exact h _ 16 _ 120 (2 ^ 64) hp (.inr (by decide)) ⟨16, 0xfd00 * 2 ^ 112 + 2 ^ 64⟩ (by decide +kernel)

/-- And for an IPv4-mapped prefix even an in-range host number gives an address outside. -/
theorem C19_host_mapped : PrefixText (b "::ffff:10.0.0.0/104") 16 (mappedLo + 0x0a000000) 104 ∧
    withPrefix (b "::ffff:10.0.0.0/104") (cidrHost · (some 1)) =
      .ok ⟨16, mappedLo + 0x0a000000 + 2 ^ 96⟩ :=
  ⟨prefixText_eq (by decide +kernel), by decide +kernel⟩

/-- Out of range fails for every number below 2^63, in particular for every int64.
Missing: larger numbers (`C19_host_wraps`). -/
theorem C19_host_out_of_range_partial {s : Bytes} {len a n : Nat} (h : PrefixText s len a n)
    (num : Int) (ho : num < -2 ^ (8 * len - n) ∨ 2 ^ (8 * len - n) ≤ num) (hlt : num < 2 ^ 63) :
    withPrefix s (cidrHost · (some num)) = .error .err := by
  obtain ⟨h1, hw, hb⟩ := withPrefix_eq h (cidrHost · (some num))
  rw [h1]
  simp only [cidrHost, hostBig]
  have hc : ((2 ^ (8 * len - n) : Nat) : Int) = 2 ^ (8 * len - n) := by simp
  have hpos := two_pow_pos (8 * len - n)
  rw [if_pos]
  by_cases hneg : num < 0
  · rw [if_pos hneg]; omega
  · rw [if_neg hneg]
    simp only [lowInt64]
    rw [Nat.mod_eq_of_lt (by omega), if_pos (by omega)]
    omega

example : (2 : Int) ^ (8 * 4 - 8) ≤ 2 ^ 24 ∧ (2 : Int) ^ 24 < 2 ^ 63 := by decide

/-- Exactly these numbers are refused: below the range, and those whose low 64 bits, as an `int64`, are above it. -/
theorem C19_host_refused {s : Bytes} {len a n : Nat} (h : PrefixText s len a n) (num : Int) :
    withPrefix s (cidrHost · (some num)) = .error .err ↔
      num < -2 ^ (8 * len - n) ∨ (0 ≤ num ∧ 2 ^ (8 * len - n) ≤ num % 2 ^ 64 ∧ num % 2 ^ 64 < 2 ^ 63) := by
  obtain ⟨h1, hw, hb⟩ := withPrefix_eq h (cidrHost · (some num))
  rw [h1]
  simp only [cidrHost, hostBig]
  have hc : ((2 ^ (8 * len - n) : Nat) : Int) = 2 ^ (8 * len - n) := by simp
  have hpos := two_pow_pos (8 * len - n)
  have hins : ∀ p q (k : Int), insertNumIntoIP p q k ≠ .error .err := by
    intro p q k
    unfold insertNumIntoIP
    split
    · simp
    · dsimp only
      split <;> simp
  generalize (2 : Int) ^ (8 * len - n) = H at *
  by_cases hneg : num < 0
  · rw [if_pos hneg]
    constructor
    · intro he
      split at he
      · exact .inl (by omega)
      · exact absurd he (hins _ _ _)
    · rintro (h | h)
      · rw [if_pos (by omega)]
      · omega
  · rw [if_neg hneg]
    obtain ⟨m, rfl⟩ : ∃ m : Nat, num = m := ⟨num.toNat, by omega⟩
    have hl : lowInt64 m = if m % 2 ^ 64 < 2 ^ 63 then ((m % 2 ^ 64 : Nat) : Int) else ((m % 2 ^ 64 : Nat) : Int) - 2 ^ 64 := rfl
    have hmod : m % 2 ^ 64 < 2 ^ 64 := Nat.mod_lt _ (by decide)
    have hcast : (m : Int) % 2 ^ 64 = ((m % 2 ^ 64 : Nat) : Int) := by simp
    rw [Int.toNat_natCast, hl, hcast]
    generalize m % 2 ^ 64 = l at *
    constructor
    · intro he
      split at he
      · split at he
        · exact .inr ⟨by omega, by omega, by omega⟩
        · exact absurd he (hins _ _ _)
      · split at he
        · omega
        · exact absurd he (hins _ _ _)
    · rintro (h | ⟨-, h2, h3⟩)
      · omega
      · rw [if_pos (by rw [if_pos (by omega)]; omega)]

example : withPrefix (b "fd00::/120") (cidrHost · (some (2 ^ 64 + 2 ^ 63 - 1))) = .error .err ∧
    withPrefix (b "fd00::/120") (cidrHost · (some (2 ^ 64 + 2 ^ 63))) = .ok ⟨16, 0xfd00 * 2 ^ 112 + 2 ^ 64 + 2 ^ 63⟩ := by decide +kernel

/-- `cidrsubnet` gives the `num`-th of the `2^e` subnets. -/
theorem C19_subnet_in_range {s : Bytes} {len a n : Nat} (h : PrefixText s len a n)
    (e num : Nat) (he : n + e ≤ 8 * len) (hnum : num < 2 ^ e) :
    withPrefix s (cidrSubnet · (some (e : Int)) (some (num : Int))) =
      .ok ⟨⟨len, a + num * 2 ^ (8 * len - (n + e))⟩, ⟨8 * len, n + e⟩⟩ ∧
    SubBlock (8 * len) a n (a + num * 2 ^ (8 * len - (n + e))) (n + e) ∧
    ∀ num', num < num' → a + num * 2 ^ (8 * len - (n + e)) + 2 ^ (8 * len - (n + e)) ≤
      a + num' * 2 ^ (8 * len - (n + e)) := by
  obtain ⟨h1, hw, hb⟩ := withPrefix_eq h (cidrSubnet · (some (e : Int)) (some (num : Int)))
  rw [h1]
  have hpow : 2 ^ e * 2 ^ (8 * len - (n + e)) = 2 ^ (8 * len - n) := by
    rw [← Nat.pow_add]; congr 1; omega
  have hlt : num * 2 ^ (8 * len - (n + e)) + 2 ^ (8 * len - (n + e)) ≤ 2 ^ (8 * len - n) := by
    rw [← Nat.succ_mul, ← hpow]
    exact Nat.mul_le_mul_right _ hnum
  have hp := two_pow_pos (8 * len - (n + e))
  have hfits := hb.fits
  refine ⟨?_, ⟨by omega, he, ?_, by omega, by omega⟩, ?_⟩
  · simp only [cidrSubnet, subnetBig]
    rw [if_neg (by omega), if_neg]
    · rw [insertNumIntoIP, if_neg (by have := hw.h; dsimp only; omega)]
      dsimp only
      have hsh : (8 * (len : Int) - ((n : Int) + (e : Int))).toNat = 8 * len - (n + e) := by omega
      rw [hsh]
      have : ((num : Int) * 2 ^ (8 * len - (n + e))) = Int.ofNat (num * 2 ^ (8 * len - (n + e))) := by simp
      rw [this]
      simp only [orAbs, or_add hb.aligned (by omega : num * 2 ^ (8 * len - (n + e)) < 2 ^ (8 * len - n))]
      rw [if_pos (by omega)]
      dsimp only
      rw [show ((n : Int) + (e : Int)) = ((n + e : Nat) : Int) by omega, cidrMask_ok hw he]
    · simp only [Int.natAbs_natCast]
      have hmod : num % 2 ^ 64 ≤ num := Nat.mod_le _ _
      split
      · simp only [Int.toNat_natCast]; omega
      · have := Nat.mod_lt num (two_pow_pos 64)
        omega
  · exact Nat.dvd_add (dvd_trans_pow (by omega) hb.aligned) (Nat.dvd_mul_left _ _)
  · intro num' hlt'
    rw [Nat.add_assoc, ← Nat.succ_mul]
    exact Nat.add_le_add_left (Nat.mul_le_mul_right _ hlt') _

example : withPrefix (b "172.16.0.0/12") (cidrSubnet · (some 4) (some 2)) =
    .ok ⟨⟨4, 0xac120000⟩, ⟨32, 16⟩⟩ := by decide +kernel

/-- A netnum that does not fit, or too many newbits, is an error (for nonnegative numbers
below 2^64 and newbits below 64). -/
theorem C19_subnet_out_of_range_partial {s : Bytes} {len a n : Nat} (h : PrefixText s len a n)
    (e num : Nat) (hnum : num < 2 ^ 64) (ho : 8 * len < n + e ∨ (e < 64 ∧ 2 ^ e ≤ num)) :
    withPrefix s (cidrSubnet · (some (e : Int)) (some (num : Int))) = .error .err := by
  obtain ⟨h1, hw, hb⟩ := withPrefix_eq h (cidrSubnet · (some (e : Int)) (some (num : Int)))
  rw [h1]
  simp only [cidrSubnet, subnetBig]
  by_cases hl : 8 * len < n + e
  · rw [if_pos (by omega)]
  · rw [if_neg (by omega)]
    obtain ⟨h2, h3⟩ := ho.resolve_left hl
    rw [if_pos]
    simp only [Int.natAbs_natCast, Nat.mod_eq_of_lt hnum]
    rw [if_pos (by omega)]
    simp only [Int.toNat_natCast]
    have := two_pow_pos e
    omega

example : withPrefix (b "172.16.0.0/12") (cidrSubnet · (some 4) (some 16)) = .error .err := by
  decide +kernel

/-- A negative netnum is not rejected: `cidrsubnet("10.0.0.0/8", 8, -1)` is `0.1.0.0/16`,
outside the prefix. -/
theorem C19_negative_netnum : PrefixText (b "10.0.0.0/8") 4 (10 * 2 ^ 24) 8 ∧
    withPrefix (b "10.0.0.0/8") (cidrSubnet · (some 8) (some (-1))) = .ok ⟨⟨4, 2 ^ 16⟩, ⟨32, 16⟩⟩ ∧
    ¬ SubBlock 32 (10 * 2 ^ 24) 8 (2 ^ 16) 16 := by
  refine ⟨prefixText_eq (by decide +kernel), by decide +kernel, ?_⟩
  rintro ⟨_, _, _, h, _⟩
  exact absurd h (by decide)

/-- An argument that is not a whole number of the right size is an error, whatever the prefix and the other arguments. -/
theorem C19_not_a_number (s : Bytes) (x : Option Int) :
    withPrefix s (cidrHost · none) = .error .err ∧ withPrefix s (cidrSubnet · none x) = .error .err ∧
    withPrefix s (cidrSubnet · x none) = .error .err := by
  have hp : IPAddr.parseCIDR s ≠ none := by
    obtain ⟨_, h, _⟩ := IPAddr.parseCIDR_iff s
    simp [h]
  unfold withPrefix
  cases h : IPAddr.parseCIDR s with
  | none => exact absurd h hp
  | some o => cases o <;> cases x <;> simp [cidrHost, cidrSubnet]

example : withPrefix (b "10.0.0.0/8") (cidrSubnet · none (some 1)) = .error .err := by decide +kernel

/-! ## C27 -/

/-- `cidrnetmask` gives the mask of every IPv4 prefix and rejects the IPv6 prefixes outside
the IPv4-mapped range. -/
theorem C27_netmask {s : Bytes} {len a n : Nat} (h : PrefixText s len a n) :
    (len = 4 → withPrefix s cidrNetmask = .ok ⟨32, n⟩) ∧
    (len = 16 → a / 2 ^ 32 ≠ 0xffff → withPrefix s cidrNetmask = .error .err) := by
  obtain ⟨h1, hw, hb⟩ := withPrefix_eq h cidrNetmask
  rw [h1]
  constructor
  · rintro rfl; simp [cidrNetmask, IP.to4]
  · rintro rfl hne; simp [cidrNetmask, IP.to4, IP.mapped, hne]

example : withPrefix (b "172.16.0.0/12") cidrNetmask = .ok ⟨32, 12⟩ := by decide +kernel

end Verif.Cidr
