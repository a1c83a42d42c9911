import Verif.Lemmas.CidrText
import Verif.Props.Cidr
/-! The texts that the functions on prefixes return (C149). -/
namespace Verif.Cidr
open Funcs (Num)

theorem toBig_int (z : Int) : toBig (.fin z) = some z := by simp [toBig]

theorem toInt_int {z : Int} (h1 : -(2 ^ 63) ≤ z) (h2 : z < 2 ^ 63) : Num.toInt (.fin z) = some z := by
  have e : Hcl.fitsI64 z = true := by rw [Hcl.fitsI64, decide_eq_true h1, decide_eq_true h2]; rfl
  simp [Num.toInt, e]

theorem mapped_of_base {len a n x : Nat} (hb : IsBase (8 * len) a n) (h1 : a ≤ x) (h2 : x < a + 2 ^ (8 * len - n))
    (hx : ¬ Mapped len x) : ¬ Mapped len a := by
  rintro ⟨rfl, hm⟩
  refine hx ⟨rfl, ?_⟩
  have hn := base_mapped hb hm
  obtain ⟨m1, m2⟩ := mapped_iff.1 hm
  have hle := hb.le
  have : a + 2 ^ (8 * 16 - n) ≤ 2 ^ 48 := dvd_lt_le hb.aligned (dvd_pow_le (by omega)) m2
  exact mapped_iff.2 ⟨by omega, by omega⟩

/-- C149: the text that `cidrhost` returns for a host number in range, counted from either end, is the text of that
address in the prefix, unless the address is IPv4-mapped. -/
theorem C149_host {s : Bytes} {len a n : Nat} (h : PrefixText s len a n) (y : Nat) (hy : y < 2 ^ (8 * len - n)) :
    (¬ Mapped len (a + y) → ∃ t, host s (.fin (y : Int)) = .ok t ∧ AddrText t len (a + y)) ∧
    (¬ Mapped len (a + (2 ^ (8 * len - n) - 1 - y)) →
      ∃ t, host s (.fin (-(y : Int) - 1 : Int)) = .ok t ∧ AddrText t len (a + (2 ^ (8 * len - n) - 1 - y))) := by
  obtain ⟨-, hw, hb⟩ := withPrefix_eq h cidrNetmask
  have hf := hb.fits
  constructor
  · intro hm
    have hm' := mapped_of_base hb (by omega) (by omega) hm
    obtain ⟨h1, -, -, -⟩ := C19_host_in_range h hm' y hy
    refine ⟨ipText ⟨len, a + y⟩, ?_, ipText_addr hw hm (by omega)⟩
    rw [host, toBig_int, h1]
    rfl
  · intro hm
    have hm' := mapped_of_base hb (by omega) (by omega) hm
    obtain ⟨-, h1, -, -⟩ := C19_host_in_range h hm' y hy
    refine ⟨ipText ⟨len, a + (2 ^ (8 * len - n) - 1 - y)⟩, ?_, ipText_addr hw hm (by omega)⟩
    rw [host, toBig_int, h1]
    rfl

/-- C149: the text that `cidrsubnet` returns for numbers in range is the text of that part of the prefix, unless it
begins with an IPv4-mapped address. -/
theorem C149_subnet {s : Bytes} {len a n : Nat} (h : PrefixText s len a n) (e num : Nat) (he : n + e ≤ 8 * len)
    (hnum : num < 2 ^ e) (hm : ¬ Mapped len (a + num * 2 ^ (8 * len - (n + e)))) :
    ∃ t, subnet s (.fin (e : Int)) (.fin (num : Int)) = .ok t ∧
      PrefixText t len (a + num * 2 ^ (8 * len - (n + e))) (n + e) := by
  obtain ⟨-, hw, hb⟩ := withPrefix_eq h cidrNetmask
  obtain ⟨h1, h2, -⟩ := C19_subnet_in_range h e num he hnum
  refine ⟨_, ?_, netText_prefix hw hm ?_ he h2.2.2.1⟩
  · have := hw.bits
    rw [subnet, toBig_int, toInt_int (by omega) (by omega), h1]
    rfl
  · have := h2.2.2.2.2
    have := hb.fits
    have := two_pow_pos (8 * len - (n + e))
    omega

/-- C149: the texts that `cidrsubnets` returns are the texts of the networks of C17, in order. -/
theorem C149_subnets {s : Bytes} {len a n : Nat} (h : PrefixText s len a n) {args : List Num} {out : List Bytes}
    (ho : subnets s args = .ok out) :
    ∃ nets : List Net, withPrefix s (cidrSubnets · (args.map Num.toInt)) = .ok nets ∧ out.length = nets.length ∧
      ∀ (i : Nat) (t : Bytes) (net : Net), out[i]? = some t → nets[i]? = some net →
        PrefixText t len net.ip.n net.mask.ones := by
  unfold subnets at ho
  cases hc : withPrefix s (cidrSubnets · (args.map Num.toInt)) with
  | error e => rw [hc] at ho; cases ho
  | ok nets =>
    rw [hc] at ho
    have ho' : nets.map netText = out := by injection ho
    subst ho'
    refine ⟨nets, rfl, by simp, ?_⟩
    intro i t net ht hn
    rw [List.getElem?_map, hn] at ht
    have ht' : netText net = t := by injection ht
    subst ht'
    obtain ⟨-, hw, hb⟩ := withPrefix_eq h cidrNetmask
    obtain ⟨hm, bs, hbs, hv, hall, hnets⟩ := (C18_exact h _ _).mp hc
    obtain ⟨-, h17, -⟩ := C17_disjoint_inside h hc
    obtain ⟨e, -, hmask, hlen, hsub⟩ := h17 i net hn
    obtain ⟨⟨l, x⟩, m⟩ := net
    simp only at hmask hlen hsub
    subst hmask hlen
    have hlt : x < 2 ^ (8 * l) := by
      have := hsub.2.2.2.2
      have := hb.fits
      have := two_pow_pos (8 * l - (n + e))
      omega
    refine netText_prefix hw ?_ hlt hsub.2.1 hsub.2.2.1
    rintro ⟨rfl, hx⟩
    have hmem : (x, n + e) ∈ allocate (8 * 16) n a bs := by
      have := List.mem_of_getElem? hn
      rw [hnets, List.mem_map] at this
      obtain ⟨⟨x', q'⟩, hx', heq⟩ := this
      simp only [Net.mk.injEq, IP.mk.injEq, Mask.mk.injEq, true_and] at heq
      rw [← heq.1, ← heq.2]
      exact hx'
    obtain ⟨m1, m2⟩ := mapped_iff.1 hx
    exact (hall _ _ hmem).2.2 ⟨rfl, m1, by omega⟩

/-- C149: the text that `cidrnetmask` returns for an IPv4 prefix is the address with as many leading ones. -/
theorem C149_netmask {s : Bytes} {a n : Nat} (h : PrefixText s 4 a n) :
    ∃ t, netmask s = .ok t ∧ AddrText t 4 (2 ^ 32 - 2 ^ (32 - n)) := by
  obtain ⟨-, hw, hb⟩ := withPrefix_eq h cidrNetmask
  refine ⟨ipText ⟨4, 2 ^ 32 - 2 ^ (32 - n)⟩, ?_, ipText_addr hw (by rintro ⟨h, -⟩; cases h) ?_⟩
  · rw [netmask, (C27_netmask h).1 rfl]
    simp only [Except.map, Mask.toIP]
  · have := two_pow_pos (32 - n)
    have : 2 ^ (32 - n) ≤ 2 ^ 32 := Nat.pow_le_pow_right (by decide) (by omega)
    show _ < 2 ^ 32
    omega

/-- C149: so the result of one function is an argument for the next: a host of a subnet is a host of the prefix. -/
theorem C149_chain {s : Bytes} {len a n : Nat} (h : PrefixText s len a n) (e num y : Nat) (he : n + e ≤ 8 * len)
    (hnum : num < 2 ^ e) (hy : y < 2 ^ (8 * len - (n + e)))
    (hm : ¬ Mapped len (a + num * 2 ^ (8 * len - (n + e))))
    (hm' : ¬ Mapped len (a + num * 2 ^ (8 * len - (n + e)) + y)) :
    ∃ t u, subnet s (.fin (e : Int)) (.fin (num : Int)) = .ok t ∧ host t (.fin (y : Int)) = .ok u ∧
      AddrText u len (a + num * 2 ^ (8 * len - (n + e)) + y) ∧
      host s (.fin ((num * 2 ^ (8 * len - (n + e)) + y : Nat) : Int)) = .ok u := by
  obtain ⟨t, h1, h2⟩ := C149_subnet h e num he hnum hm
  obtain ⟨-, hw, hb⟩ := withPrefix_eq h cidrNetmask
  obtain ⟨-, -, hb2⟩ := withPrefix_eq h2 cidrNetmask
  have hm2 := mapped_of_base hb2 (by omega) (by omega) hm'
  obtain ⟨g1, -, -, -⟩ := C19_host_in_range h2 hm2 y hy
  have hin := (C19_subnet_in_range h e num he hnum).2.1.2.2.2.2
  have hm3 := mapped_of_base hb (x := a + num * 2 ^ (8 * len - (n + e)) + y) (by omega) (by omega) hm'
  obtain ⟨g2, -, -, -⟩ := C19_host_in_range h hm3 (num * 2 ^ (8 * len - (n + e)) + y) (by omega)
  have hlt : a + num * 2 ^ (8 * len - (n + e)) + y < 2 ^ (8 * len) := by have := hb.fits; omega
  refine ⟨t, ipText ⟨len, a + num * 2 ^ (8 * len - (n + e)) + y⟩, h1, ?_, ipText_addr hw hm' hlt, ?_⟩
  · rw [host, toBig_int, g1]; rfl
  · rw [host, toBig_int, g2, Nat.add_assoc]; rfl

/-- C149: numbers that are not whole are refused, whatever the prefix and the other arguments. -/
theorem C149_whole (s : Bytes) (x y : Num) (hx : ∀ z : Int, x ≠ .fin z) :
    host s x = .error .err ∧ subnet s x y = .error .err ∧ subnet s y x = .error .err := by
  have hb : toBig x = none := by
    cases x with
    | inf _ => rfl
    | fin q =>
      simp only [toBig]
      split
      · rename_i hd
        refine absurd ?_ (hx q.num)
        congr 1
        exact Rat.ext (by simp) (by simp [hd])
      · rfl
  have hi : x.toInt = none := by
    cases x with
    | inf _ => rfl
    | fin q =>
      simp only [Num.toInt]
      simp only [toBig] at hb
      split at hb
      · cases hb
      · rename_i hd
        simp [hd]
  have h := C19_not_a_number s
  refine ⟨?_, ?_, ?_⟩
  · rw [host, hb, (h none).1]; rfl
  · rw [subnet, hi, (h _).2.1]; rfl
  · rw [subnet, hb, (h _).2.2]; rfl

/-- What C149 demands of `cidrsubnet`: every text it returns is the text of a part of the prefix. -/
def SubnetTexts : Prop :=
  ∀ (s t : Bytes) (len a n : Nat) (newbits netnum : Num), PrefixText s len a n → subnet s newbits netnum = .ok t →
    ∃ a' q, PrefixText t len a' q ∧ SubBlock (8 * len) a n a' q

theorem no_slash {t : Bytes} (h : (47 : UInt8) ∉ t) (len a n : Nat) : ¬ PrefixText t len a n := by
  rintro ⟨bytes, ip, hc, -⟩
  cases hc with
  | v4 _ _ e => exact h (by rw [e]; simp)
  | v6 _ _ e => exact h (by rw [e]; simp)

/-- C149 is violated: for a negative number of bits `cidrsubnet` returns `<nil>` or a larger network, and parts of
IPv6 prefixes that begin with an IPv4-mapped address are returned as IPv4 networks; hosts of IPv4-mapped prefixes
are elsewhere, and their mask is an IPv6 address. -/
theorem C149_violated : ¬ SubnetTexts ∧
    subnet (b "10.0.0.0/8") (.fin (-9 : Int)) (.fin (0 : Int)) = .ok (b "<nil>") ∧
    subnet (b "10.0.0.0/8") (.fin (-1 : Int)) (.fin (0 : Int)) = .ok (b "10.0.0.0/7") ∧
    subnet (b "::/16") (.fin (80 : Int)) (.fin (65535 : Int)) = .ok (b "0.0.0.0/0") ∧
    host (b "::ffff:10.0.0.0/104") (.fin (1 : Int)) = .ok (b "0:1::ffff:a00:0") ∧
    netmask (b "::ffff:10.0.0.0/104") = .ok (b "ffff:ffff:ffff:ffff:ffff:ffff:ff00:0") := by
  have h1 : subnet (b "10.0.0.0/8") (.fin (-9 : Int)) (.fin (0 : Int)) = .ok (b "<nil>") := by decide +kernel
  refine ⟨?_, h1, by decide +kernel, by decide +kernel, by decide +kernel, by decide +kernel⟩
  intro h
  have hp : PrefixText (b "10.0.0.0/8") 4 (10 * 2 ^ 24) 8 := prefixText_eq (by decide +kernel)
  obtain ⟨a', q, ht, -⟩ := h _ _ _ _ _ _ _ hp h1
  exact no_slash (by decide) _ _ _ ht

/-! ### Examples -/

example : subnet (b "fd00:fd12:3456:7890::/56") (.fin (16 : Int)) (.fin (162 : Int)) =
    .ok (b "fd00:fd12:3456:7800:a200::/72") := by decide +kernel
example : host (b "fd00:fd12:3456:7890:00a2::/72") (.fin (34 : Int)) = .ok (b "fd00:fd12:3456:7890::22") := by decide +kernel
example : host (b "10.12.112.0/20") (.fin (268 : Int)) = .ok (b "10.12.113.12") := by decide +kernel
example : host (b "10.12.112.0/20") (.fin (-1 : Int)) = .ok (b "10.12.127.255") := by decide +kernel
example : netmask (b "172.16.0.0/12") = .ok (b "255.240.0.0") := by decide +kernel
example : subnets (b "10.0.0.0/8") [.fin (8 : Int), .fin (4 : Int)] = .ok [b "10.0.0.0/16", b "10.16.0.0/12"] := by decide +kernel
example : PrefixText (b "10.12.112.0/20") 4 (10 * 2 ^ 24 + 12 * 2 ^ 16 + 112 * 2 ^ 8) 20 := prefixText_eq (by decide +kernel)
example : ∀ z : Int, Num.fin (1 / 2) ≠ .fin z := by
  intro z h
  injection h with h
  have : (1 / 2 : Rat).den = 1 := by rw [h]; simp
  exact absurd this (by decide +kernel)

end Verif.Cidr
