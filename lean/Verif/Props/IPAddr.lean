import Verif.Lemmas.IPNet
/-! Properties C12-C16: parsing of IP addresses and CIDR blocks. -/
namespace Verif.IPAddr

/-! ## C12 -/

/-- `parseIPv4` succeeds exactly on dotted quads, with exactly these octets. -/
theorem C12_parseIPv4 (s out : Bytes) : parseIPv4 s = some (some out) ↔
    ∃ o, Quad s o ∧ out = mappedPrefix ++ o.map UInt8.ofNat := by
  obtain ⟨r, h1, h2⟩ := parseIPv4_iff s
  rw [h1, Option.some.injEq]; exact h2 out

/-- `ParseIP` on text without a colon. -/
theorem C12_parseIP (s out : Bytes) (hc : (58 : UInt8) ∉ s) : parseIP s = some (some out) ↔
    ∃ o, Quad s o ∧ out = mappedPrefix ++ o.map UInt8.ofNat := by
  obtain ⟨r, h1, h2⟩ := parseIP_iff s
  rw [h1, Option.some.injEq, h2]
  constructor
  · rintro (h | ⟨gs, hg, _⟩)
    · exact h
    · have := ipv6_sep hg
      generalize ho : some (58 : UInt8) = o at this
      cases this with
      | none => cases ho
      | sep => cases ho; simp at hc
  · exact .inl

example : parseIP (b "192.0.02.255") = some (some (mappedPrefix ++ [192, 0, 2, 255])) := by decide
example : parseIP (b "192.0.2.256") = some none := by decide
example : parseIP (b "192.0.2.") = some none := by decide

/-! ## C13 -/

/-- `parseIPv6` succeeds exactly on the IPv6 text grammar, with exactly these groups. -/
theorem C13_parseIPv6 (s out : Bytes) : parseIPv6 s = some (some out) ↔
    ∃ gs, IPv6Text s gs ∧ out = groupBytes gs := by
  obtain ⟨r, h1, h2⟩ := parseIPv6_iff s
  rw [h1, Option.some.injEq]; exact h2 out

/-- `ParseIP` accepts the union of the two grammars and nothing else. -/
theorem C13_parseIP (s out : Bytes) : parseIP s = some (some out) ↔
    (∃ o, Quad s o ∧ out = mappedPrefix ++ o.map UInt8.ofNat) ∨
    (∃ gs, IPv6Text s gs ∧ out = groupBytes gs) := by
  obtain ⟨r, h1, h2⟩ := parseIP_iff s
  rw [h1, Option.some.injEq]; exact h2 out

/-- The grammar denotes one address only: a text cannot be read in two ways, and always has
eight groups. -/
theorem C13_unambiguous {s : Bytes} {gs gs' : List Nat} (h : IPv6Text s gs) (h' : IPv6Text s gs') :
    groupBytes gs = groupBytes gs' ∧ gs.length = 8 ∧ ∀ o, ¬ Quad s o := by
  have h1 := (C13_parseIPv6 s _).mpr ⟨gs, h, rfl⟩
  have h2 := (C13_parseIPv6 s _).mpr ⟨gs', h', rfl⟩
  rw [h1] at h2
  exact ⟨by simpa using h2, ipv6_len h, fun o ho => quad_not_ipv6 ho h⟩

example : parseIP (b "1:22::10.0.0.1") = some (some [0, 1, 0, 0x22, 0, 0, 0, 0, 0, 0, 0, 0, 10, 0, 0, 1]) := by
  decide
example : parseIP (b "1:2:3:4:5:6:7:8::") = some none := by decide
example : IPv6Text (b "fe80::a1") [0xfe80, 0, 0, 0, 0, 0, 0, 0xa1] :=
  IPv6Text.ellipsis (l := b "fe80") (r := b "a1") (lg := [0xfe80]) (rg := [0xa1])
    (.inr (by
      have := hexgroups_text [0xfe80] (by simp) (by simp)
      simp [joinWith, hexText, hexChar] at this; exact this))
    (.inr (by
      have := (hexgroups_text [0xa1] (by simp) (by simp)).groups
      simp [joinWith, hexText, hexChar] at this; exact this)) (by simp)

/-! ## C14 -/

/-- Parsing the dotted-quad text of four octets gives these octets. -/
theorem C14_ipv4 (x y z w : UInt8) :
    parseIP (joinWith 46 [decText x.toNat, decText y.toNat, decText z.toNat, decText w.toNat]) =
      some (some (mappedPrefix ++ [x, y, z, w])) := by
  refine (C13_parseIP _ _).mpr (.inl ⟨[x.toNat, y.toNat, z.toNat, w.toNat], ?_, by simp⟩)
  have hlt : ∀ x : UInt8, x.toNat ≤ 255 := fun x => Nat.le_of_lt_succ x.toNat_lt
  exact ⟨_, _, _, _, _, _, _, _, ⟨decText_num _, hlt x⟩, ⟨decText_num _, hlt y⟩,
    ⟨decText_num _, hlt z⟩, ⟨decText_num _, hlt w⟩, rfl, rfl⟩

/-- Parsing the hexadecimal text of eight groups gives these groups. -/
theorem C14_ipv6 (gs : List Nat) (hl : gs.length = 8) (hg : ∀ g ∈ gs, g ≤ 0xFFFF) :
    parseIP (joinWith 58 (gs.map hexText)) = some (some (groupBytes gs)) := by
  refine (C13_parseIP _ _).mpr (.inr ⟨gs, .full ?_ hl, rfl⟩)
  exact (hexgroups_text gs (by rintro rfl; simp at hl) hg).groups

/-- So does the text with any run of zero groups written as `::`. -/
theorem C14_ipv6_compressed (lg rg : List Nat) (k : Nat) (hk : 1 ≤ k)
    (hl : lg.length + k + rg.length = 8) (h1 : ∀ g ∈ lg, g ≤ 0xFFFF) (h2 : ∀ g ∈ rg, g ≤ 0xFFFF) :
    parseIP (joinWith 58 (lg.map hexText) ++ 58 :: 58 :: joinWith 58 (rg.map hexText)) =
      some (some (groupBytes (lg ++ List.replicate k 0 ++ rg))) := by
  refine (C13_parseIP _ _).mpr (.inr ⟨_, ?_, rfl⟩)
  have := IPv6Text.ellipsis (l := joinWith 58 (lg.map hexText)) (r := joinWith 58 (rg.map hexText))
    (lg := lg) (rg := rg) ?_ ?_ (by omega)
  · rwa [show 8 - (lg.length + rg.length) = k by omega] at this
  · cases lg with
    | nil => exact .inl ⟨rfl, rfl⟩
    | cons g lg => exact .inr (hexgroups_text _ (by simp) h1)
  · cases rg with
    | nil => exact .inl ⟨rfl, rfl⟩
    | cons g rg => exact .inr (hexgroups_text _ (by simp) h2).groups

/-- Different addresses print differently (the round trip determines the octets). -/
theorem C14_groups_injective (gs gs' : List Nat) (hl : gs.length = 8) (hl' : gs'.length = 8)
    (hg : ∀ g ∈ gs, g ≤ 0xFFFF) (hg' : ∀ g ∈ gs', g ≤ 0xFFFF)
    (h : groupBytes gs = groupBytes gs') : gs = gs' := by
  have key : ∀ gs gs' : List Nat, gs.length = gs'.length → (∀ g ∈ gs, g ≤ 0xFFFF) →
      (∀ g ∈ gs', g ≤ 0xFFFF) → groupBytes gs = groupBytes gs' → gs = gs' := by
    intro gs
    induction gs with
    | nil => intro gs' h _ _ _; exact (List.length_eq_zero_iff.mp h.symm).symm
    | cons g gs ih =>
      intro gs' hl h1 h2 he
      cases gs' with
      | nil => simp at hl
      | cons g' gs' =>
        rw [groupBytes_cons, groupBytes_cons] at he
        simp only [List.cons_append, List.nil_append, List.cons.injEq] at he
        obtain ⟨e1, e2, e3⟩ := he
        rw [ih gs' (by simpa using hl) (fun x hx => h1 x (by simp [hx])) (fun x hx => h2 x (by simp [hx])) e3]
        have a1 := h1 g (by simp)
        have a2 := h2 g' (by simp)
        have e1' := congrArg UInt8.toNat e1
        have e2' := congrArg UInt8.toNat e2
        simp only [UInt8.toNat_ofNat'] at e1' e2'
        have : g = g' := by omega
        rw [this]
  exact key gs gs' (hl.trans hl'.symm) hg hg' h

example : joinWith 58 ([0x2001, 0xdb8].map hexText) = b "2001:db8" := by
  simp [joinWith, hexText, hexChar, b]; decide

/-! ## C15 -/

/-- `ParseCIDR` succeeds exactly on `address/length` text, with the address, and with the
network and mask the arithmetic definition prescribes. -/
theorem C15_parseCIDR (s ip : Bytes) (net : IPNet) : parseCIDR s = some (some (ip, net)) ↔
    ∃ a n nb, CIDRText s a ip n ∧ net.ip = some nb ∧ IsNet a n nb net.mask := by
  obtain ⟨r, h1, h2⟩ := parseCIDR_iff s
  rw [h1, Option.some.injEq]; exact h2 ip net

/-- The network block contains the address: it starts at the network address and has
`2^(w-n)` members. -/
theorem C15_contains {a net mask : Bytes} {n : Nat} (h : IsNet a n net mask) :
    natOf net ≤ natOf a ∧ natOf a < natOf net + 2 ^ (8 * a.length - n) ∧
      2 ^ (8 * a.length - n) ∣ natOf net ∧ natOf net + 2 ^ (8 * a.length - n) ≤ 2 ^ (8 * a.length) := by
  have hp : 0 < 2 ^ (8 * a.length - n) := Nat.pow_pos (by decide)
  have hd := Nat.div_add_mod (natOf a) (2 ^ (8 * a.length - n))
  have hm := Nat.mod_lt (natOf a) hp
  have hn := h.net
  rw [Nat.mul_comm] at hn
  refine ⟨by omega, by omega, ⟨_, hn⟩, ?_⟩
  have hlt := natOf_lt a
  rw [pow256] at hlt
  have e : 2 ^ (8 * a.length) = 2 ^ (8 * a.length - n) * 2 ^ n := by
    rw [← Nat.pow_add]; congr 1; have := h.le; omega
  rw [hn, e, ← Nat.mul_succ]
  refine Nat.mul_le_mul_left _ ?_
  rw [e] at hlt
  exact Nat.div_lt_of_lt_mul hlt

example : parseCIDR (b "10.1.2.3/20") = some (some (mappedPrefix ++ [10, 1, 2, 3],
    ⟨some [10, 1, 0, 0], [255, 255, 240, 0]⟩)) := by decide
example : parseCIDR (b "10.1.2.3/33") = some none := by decide
example : IsNet [10, 1, 2, 3] 20 [10, 1, 0, 0] [255, 255, 240, 0] :=
  ⟨by decide, rfl, rfl, by decide, by decide⟩

/-! ## C16 -/

/-- No input makes the parsers index or slice out of range. -/
theorem C16_no_panic (s : Bytes) :
    parseIPv4 s ≠ none ∧ parseIPv6 s ≠ none ∧ parseIP s ≠ none ∧ parseCIDR s ≠ none := by
  obtain ⟨_, h1, _⟩ := parseIPv4_iff s
  obtain ⟨_, h2, _⟩ := parseIPv6_iff s
  obtain ⟨_, h3, _⟩ := parseIP_iff s
  obtain ⟨_, h4, _⟩ := parseCIDR_iff s
  rw [h1, h2, h3, h4]; simp

-- the out-of-range outcome is representable
example : sliceFrom (b "a") 2 = none := rfl

end Verif.IPAddr
