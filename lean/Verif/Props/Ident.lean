import Verif.Lemmas.Ident
import Verif.Spec.Encoding
/-!
# Properties of identifiers and password hashes

C150: texts of UUIDs and what `uuidv5` makes of them.  C151: which cost a hash of `bcrypt` says.
-/
namespace Verif.Ident
open Funcs File

/-! ## Examples -/

/-- Some sixteen bytes. -/
def exampleBytes : Bytes := [0x6b, 0xa7, 0xb8, 0x10, 0x9d, 0xad, 0x11, 0xd1, 0x80, 0xb4, 0x00, 0xc0, 0x4f, 0xd4, 0x30, 0xc8]

/-- In the place of SHA-1: the bytes backwards, and more. -/
def exampleSum (s : Bytes) : Bytes := s.reverse ++ List.replicate 20 7

/-! ## C150 -/

/-- `uuid` writes its random bytes in the form of a UUID. -/
theorem C150_uuid {nfc : Bytes → Bytes} (hn : FixesAscii nfc) {random : Bytes} (h : random.length = 16) :
    Dashed random (uuid nfc random) := by
  unfold uuid
  rw [hn _ (dashed_ascii (text_dashed h))]
  exact text_dashed h

example : FixesAscii id ∧ exampleBytes.length = 16 ∧ uuid id exampleBytes = b "6ba7b810-9dad-11d1-80b4-00c04fd430c8" :=
  ⟨fun _ _ => rfl, rfl, by decide +kernel⟩

/-- Different random bytes give different texts. -/
theorem C150_uuid_injective {nfc : Bytes → Bytes} (hn : FixesAscii nfc) {r r' : Bytes} (h : r.length = 16)
    (h' : r'.length = 16) : uuid nfc r = uuid nfc r' ↔ r = r' :=
  ⟨fun e => dashed_unique (C150_uuid hn h) (e ▸ C150_uuid hn h'), fun e => e ▸ rfl⟩

example : FixesAscii id ∧ exampleBytes.length = 16 ∧ uuid id exampleBytes ≠ uuid id (exampleBytes.set 15 0) :=
  ⟨fun _ _ => rfl, rfl, by decide +kernel⟩

/-- The result of `uuid` is a UUID of version 4 exactly when the random bytes say so by chance: the code does not see to
it. -/
theorem C150_version4_partial {nfc : Bytes → Bytes} (hn : FixesAscii nfc) {random : Bytes} (h : random.length = 16) :
    (∃ u, Dashed u (uuid nfc random) ∧ HasVersion u 4) ↔
      (random.getD 6 0).toNat / 16 = 4 ∧ (random.getD 8 0).toNat / 64 = 2 := by
  constructor
  · rintro ⟨u, hu, hv⟩
    rw [dashed_unique (C150_uuid hn h) hu]
    exact hv.2
  · intro hv
    exact ⟨random, C150_uuid hn h, h, hv⟩

example : FixesAscii id ∧ (exampleBytes.set 6 0x4f).length = 16 ∧ ((exampleBytes.set 6 0x4f).getD 6 0).toNat / 16 = 4 :=
  ⟨fun _ _ => rfl, rfl, by decide⟩

/-- `uuid` can return a text that is no UUID of any version of RFC 4122. -/
theorem C150_version4_violated {nfc : Bytes → Bytes} (hn : FixesAscii nfc) :
    ∃ random : Bytes, random.length = 16 ∧ ∀ v u, Dashed u (uuid nfc random) → ¬HasVersion u v := by
  refine ⟨List.replicate 16 0, rfl, fun v u hu hv => ?_⟩
  have e := dashed_unique hu (C150_uuid hn (random := List.replicate 16 0) rfl)
  subst e
  have h2 := hv.2.2
  revert h2
  decide

theorem v5_eq {nfc sha1 : Bytes → Bytes} {errText : ParseErr → Bytes} {ns name : Marked Bytes} {u : Bytes}
    (hn : FixesAscii nfc) (hs : ∀ s, 16 ≤ (sha1 s).length) (h : known ns.v = some u ∨ parse ns.v = .ok u) :
    v5 nfc sha1 errText ns name = .ok ⟨text (stamp (sha1 (u ++ name.v))), ns.marks ++ name.marks⟩ := by
  have ht : ∀ u, nfc (text (stamp (sha1 (u ++ name.v)))) = text (stamp (sha1 (u ++ name.v))) :=
    fun u => hn _ (dashed_ascii (text_dashed (stamp_length (hs _))))
  unfold v5 uuidv5
  rcases h with h | h
  · simp only [h, ht]
  · have hk := known_none (parse_length h).1
    simp only [hk, h, Except.mapError, ht]

theorem v5_ok {nfc sha1 : Bytes → Bytes} {errText : ParseErr → Bytes} {ns name r : Marked Bytes}
    (h : v5 nfc sha1 errText ns name = .ok r) : ∃ u, known ns.v = some u ∨ parse ns.v = .ok u := by
  unfold v5 uuidv5 at h
  cases hk : known ns.v with
  | some u => exact ⟨u, .inl rfl⟩
  | none =>
    cases hp : parse ns.v with
    | ok u => exact ⟨u, .inr rfl⟩
    | error e => simp only [hk, hp, Except.mapError] at h; cases h

theorem known_iff {s u : Bytes} : known s = some u ↔
    (s = b "dns" ∧ u = wellKnown 0x10) ∨ (s = b "url" ∧ u = wellKnown 0x11) ∨ (s = b "oid" ∧ u = wellKnown 0x12) ∨
      (s = b "x500" ∧ u = wellKnown 0x14) := by
  have n1 : b "dns" ≠ b "url" := by decide +kernel
  have n2 : b "dns" ≠ b "oid" := by decide +kernel
  have n3 : b "dns" ≠ b "x500" := by decide +kernel
  have n4 : b "url" ≠ b "oid" := by decide +kernel
  have n5 : b "url" ≠ b "x500" := by decide +kernel
  have n6 : b "oid" ≠ b "x500" := by decide +kernel
  unfold known
  split
  · rename_i h; subst h; simp [n1, n2, n3, eq_comm]
  · split
    · rename_i h; subst h; simp [n1.symm, n4, n5, eq_comm]
    · split
      · rename_i h; subst h; simp [n2.symm, n4.symm, n6, eq_comm]
      · split
        · rename_i h; subst h; simp [n3.symm, n5.symm, n6.symm, eq_comm]
        · rename_i h1 h2 h3 h4
          simp [h1, h2, h3, h4]

/-- What `uuidv5` accepts as a namespace: its four names, and UUIDs in the four forms, where instead of braces any two
bytes will do. -/
theorem C150_accepts_partial {nfc sha1 : Bytes → Bytes} {errText : ParseErr → Bytes} {ns name : Marked Bytes}
    (hn : FixesAscii nfc) (hs : ∀ s, 16 ≤ (sha1 s).length) :
    (∃ r, v5 nfc sha1 errText ns name = .ok r) ↔
      ns.v ∈ [b "dns", b "url", b "oid", b "x500"] ∨ (∃ u, Names u ns.v) ∨
        ∃ c c' d u, ns.v = c :: d ++ [c'] ∧ Dashed u d := by
  constructor
  · rintro ⟨r, h⟩
    obtain ⟨u, h | h⟩ := v5_ok h
    · left
      rcases known_iff.1 h with ⟨h, _⟩ | ⟨h, _⟩ | ⟨h, _⟩ | ⟨h, _⟩ <;> simp [h]
    · right
      rcases parse_ok.1 h with h1 | ⟨p, d, e, hp, h1⟩ | ⟨c, c', d, e, h1⟩ | ⟨hl, h1⟩
      · exact .inl ⟨u, .dashed h1⟩
      · exact .inl ⟨u, e ▸ .urn hp h1⟩
      · exact .inr ⟨c, c', d, u, e, h1⟩
      · exact .inl ⟨u, .plain hl h1⟩
  · rintro (h | ⟨u, h⟩ | ⟨c, c', d, u, h, hd⟩)
    · simp only [List.mem_cons, List.not_mem_nil, or_false] at h
      rcases h with h | h | h | h
      · exact ⟨_, v5_eq hn hs (.inl (known_iff.2 (.inl ⟨h, rfl⟩)))⟩
      · exact ⟨_, v5_eq hn hs (.inl (known_iff.2 (.inr (.inl ⟨h, rfl⟩))))⟩
      · exact ⟨_, v5_eq hn hs (.inl (known_iff.2 (.inr (.inr (.inl ⟨h, rfl⟩)))))⟩
      · exact ⟨_, v5_eq hn hs (.inl (known_iff.2 (.inr (.inr (.inr ⟨h, rfl⟩)))))⟩
    · exact ⟨_, v5_eq hn hs (.inr (names_parse h))⟩
    · exact ⟨_, v5_eq hn hs (.inr (parse_ok.2 (.inr (.inr (.inl ⟨c, c', d, h, hd⟩)))))⟩

theorem exampleSum_length (s : Bytes) : 16 ≤ (exampleSum s).length := by
  unfold exampleSum
  simp only [List.length_append, List.length_replicate]
  omega

example : FixesAscii id ∧ (∀ s, 16 ≤ (exampleSum s).length) ∧ (∃ u, Names u (b "6BA7B810-9dad-11d1-80b4-00c04fd430c8")) :=
  ⟨fun _ _ => rfl, exampleSum_length, exampleBytes, .dashed ((dashed_iff (by decide +kernel)).1 (by decide +kernel))⟩

/-- A text in round brackets is no UUID, but `uuidv5` takes it for one. -/
theorem C150_accepts_violated {nfc sha1 : Bytes → Bytes} {errText : ParseErr → Bytes} {name : Marked Bytes}
    (hn : FixesAscii nfc) (hs : ∀ s, 16 ≤ (sha1 s).length) :
    (∃ r, v5 nfc sha1 errText ⟨b "(6ba7b810-9dad-11d1-80b4-00c04fd430c8)", []⟩ name = .ok r) ∧
      ∀ u, ¬Names u (b "(6ba7b810-9dad-11d1-80b4-00c04fd430c8)") := by
  have hl : (b "(6ba7b810-9dad-11d1-80b4-00c04fd430c8)").length = 38 := by decide +kernel
  refine ⟨⟨_, v5_eq (u := exampleBytes) hn hs (.inr (by decide +kernel))⟩, fun u h => ?_⟩
  generalize hx : b "(6ba7b810-9dad-11d1-80b4-00c04fd430c8)" = x at *
  cases h with
  | dashed h => have := (dashed_length h).1; omega
  | urn hp h =>
    have h1 := (dashed_length h).1
    have h2 := hp.1
    simp only [List.length_append] at hl
    omega
  | braces h =>
    have := congrArg (fun l => l.headD 0) hx
    simp only [List.cons_append, List.headD_cons] at this
    revert this
    decide +kernel
  | plain h1 h => have := hexOf_length h; omega

/-- Two ways to write a namespace do not make a difference. -/
theorem C150_same_namespace {nfc sha1 : Bytes → Bytes} {errText : ParseErr → Bytes} {u s s' : Bytes} {m : List Mark}
    {name : Marked Bytes} (hn : FixesAscii nfc) (hs : ∀ s, 16 ≤ (sha1 s).length) (h : Names u s) (h' : Names u s') :
    v5 nfc sha1 errText ⟨s, m⟩ name = v5 nfc sha1 errText ⟨s', m⟩ name ∧
      ∃ r, v5 nfc sha1 errText ⟨s, m⟩ name = .ok r := by
  rw [v5_eq hn hs (.inr (names_parse h)), v5_eq hn hs (.inr (names_parse h'))]
  exact ⟨rfl, _, rfl⟩

example : Names exampleBytes (b "6BA7B810-9dad-11d1-80b4-00c04fd430c8") ∧
    Names exampleBytes (b "6ba7b8109dad11d180b400c04fd430c8") :=
  ⟨.dashed ((dashed_iff (by decide +kernel)).1 (by decide +kernel)),
    .plain rfl (undashed_iff.1 (by decide +kernel))⟩

/-- The four names stand for the namespaces of RFC 4122 appendix C. -/
theorem C150_well_known {nfc sha1 : Bytes → Bytes} {errText : ParseErr → Bytes} {m : List Mark}
    {name : Marked Bytes} (hn : FixesAscii nfc) (hs : ∀ s, 16 ≤ (sha1 s).length) {short long : Bytes}
    (h : (short, long) ∈ [(b "dns", b "6ba7b810-9dad-11d1-80b4-00c04fd430c8"), (b "url", b "6ba7b811-9dad-11d1-80b4-00c04fd430c8"),
      (b "oid", b "6ba7b812-9dad-11d1-80b4-00c04fd430c8"), (b "x500", b "6ba7b814-9dad-11d1-80b4-00c04fd430c8")]) :
    v5 nfc sha1 errText ⟨short, m⟩ name = v5 nfc sha1 errText ⟨long, m⟩ name := by
  simp only [List.mem_cons, Prod.mk.injEq, List.not_mem_nil, or_false] at h
  rcases h with ⟨rfl, rfl⟩ | ⟨rfl, rfl⟩ | ⟨rfl, rfl⟩ | ⟨rfl, rfl⟩
  · have k1 : known (b "dns") = some (wellKnown 0x10) := by decide +kernel
    have k2 : parse (b "6ba7b810-9dad-11d1-80b4-00c04fd430c8") = .ok (wellKnown 0x10) := by decide +kernel
    rw [v5_eq hn hs (.inl k1), v5_eq hn hs (.inr k2)]
  · have k1 : known (b "url") = some (wellKnown 0x11) := by decide +kernel
    have k2 : parse (b "6ba7b811-9dad-11d1-80b4-00c04fd430c8") = .ok (wellKnown 0x11) := by decide +kernel
    rw [v5_eq hn hs (.inl k1), v5_eq hn hs (.inr k2)]
  · have k1 : known (b "oid") = some (wellKnown 0x12) := by decide +kernel
    have k2 : parse (b "6ba7b812-9dad-11d1-80b4-00c04fd430c8") = .ok (wellKnown 0x12) := by decide +kernel
    rw [v5_eq hn hs (.inl k1), v5_eq hn hs (.inr k2)]
  · have k1 : known (b "x500") = some (wellKnown 0x14) := by decide +kernel
    have k2 : parse (b "6ba7b814-9dad-11d1-80b4-00c04fd430c8") = .ok (wellKnown 0x14) := by decide +kernel
    rw [v5_eq hn hs (.inl k1), v5_eq hn hs (.inr k2)]

example : FixesAscii id ∧ (∀ s, 16 ≤ (exampleSum s).length) ∧
    v5 id exampleSum (fun _ => []) ⟨b "url", []⟩ ⟨b "a", []⟩ = .ok ⟨b "61c830d4-4fc0-50b4-80d1-11ad9d11b8a7", []⟩ :=
  ⟨fun _ _ => rfl, exampleSum_length, by decide +kernel⟩

theorem stamp_bytes {h : Bytes} (hl : 16 ≤ h.length) : ∃ a0 a1 a2 a3 a4 a5 a6 a7 a8 a9 a10 a11 a12 a13 a14 a15 r,
    h = a0 :: a1 :: a2 :: a3 :: a4 :: a5 :: a6 :: a7 :: a8 :: a9 :: a10 :: a11 :: a12 :: a13 :: a14 :: a15 :: r ∧
      stamp h = [a0, a1, a2, a3, a4, a5, a6 % 16 + 0x50, a7, a8 % 64 + 0x80, a9, a10, a11, a12, a13, a14, a15] := by
  obtain ⟨a0, s0, rfl, h0⟩ := cons_of hl
  obtain ⟨a1, s1, rfl, h1⟩ := cons_of h0
  obtain ⟨a2, s2, rfl, h2⟩ := cons_of h1
  obtain ⟨a3, s3, rfl, h3⟩ := cons_of h2
  obtain ⟨a4, s4, rfl, h4⟩ := cons_of h3
  obtain ⟨a5, s5, rfl, h5⟩ := cons_of h4
  obtain ⟨a6, s6, rfl, h6⟩ := cons_of h5
  obtain ⟨a7, s7, rfl, h7⟩ := cons_of h6
  obtain ⟨a8, s8, rfl, h8⟩ := cons_of h7
  obtain ⟨a9, s9, rfl, h9⟩ := cons_of h8
  obtain ⟨a10, s10, rfl, h10⟩ := cons_of h9
  obtain ⟨a11, s11, rfl, h11⟩ := cons_of h10
  obtain ⟨a12, s12, rfl, h12⟩ := cons_of h11
  obtain ⟨a13, s13, rfl, h13⟩ := cons_of h12
  obtain ⟨a14, s14, rfl, h14⟩ := cons_of h13
  obtain ⟨a15, s15, rfl, h15⟩ := cons_of h14
  exact ⟨_, _, _, _, _, _, _, _, _, _, _, _, _, _, _, _, _, rfl, rfl⟩

theorem ver_toNat (x : UInt8) : (x % 16 + 0x50).toNat = x.toNat % 16 + 80 := by
  simp only [UInt8.toNat_add, UInt8.toNat_mod, UInt8.reduceToNat]
  omega

theorem var_toNat (x : UInt8) : (x % 64 + 0x80).toNat = x.toNat % 64 + 128 := by
  simp only [UInt8.toNat_add, UInt8.toNat_mod, UInt8.reduceToNat]
  omega

theorem stamp_version {h : Bytes} (hl : 16 ≤ h.length) : HasVersion (stamp h) 5 := by
  obtain ⟨a0, a1, a2, a3, a4, a5, a6, a7, a8, a9, a10, a11, a12, a13, a14, a15, r, rfl, e⟩ := stamp_bytes hl
  rw [e]
  refine ⟨rfl, ?_, ?_⟩
  · have := ver_toNat a6
    show (a6 % 16 + 0x50).toNat / 16 = 5
    omega
  · have := var_toNat a8
    show (a8 % 64 + 0x80).toNat / 64 = 2
    omega

/-- Every result of `uuidv5` is a UUID of version 5. -/
theorem C150_version5 {nfc sha1 : Bytes → Bytes} {errText : ParseErr → Bytes} {ns name r : Marked Bytes}
    (hn : FixesAscii nfc) (hs : ∀ s, 16 ≤ (sha1 s).length) (h : v5 nfc sha1 errText ns name = .ok r) :
    ∃ u, Dashed u r.v ∧ HasVersion u 5 := by
  obtain ⟨u, hu⟩ := v5_ok h
  rw [v5_eq hn hs hu] at h
  injection h with h
  rw [← h]
  exact ⟨_, text_dashed (stamp_length (hs _)), stamp_version (hs _)⟩

example : FixesAscii id ∧ (∀ s, 16 ≤ (exampleSum s).length) ∧
    v5 id exampleSum (fun _ => []) ⟨b "{6ba7b810-9dad-11d1-80b4-00c04fd430c8}", []⟩ ⟨b "a", []⟩ =
      .ok ⟨b "61c830d4-4fc0-50b4-80d1-11ad9d10b8a7", []⟩ :=
  ⟨fun _ _ => rfl, exampleSum_length, by decide +kernel⟩

/-- Results of `uuid` and `uuidv5` are namespaces. -/
theorem C150_chain {nfc sha1 : Bytes → Bytes} {errText : ParseErr → Bytes} {ns name name' r : Marked Bytes} {random : Bytes}
    {m : List Mark} (hn : FixesAscii nfc) (hs : ∀ s, 16 ≤ (sha1 s).length) :
    (v5 nfc sha1 errText ns name = .ok r → ∃ r', v5 nfc sha1 errText r name' = .ok r') ∧
      (random.length = 16 → ∃ r', v5 nfc sha1 errText ⟨uuid nfc random, m⟩ name' = .ok r') := by
  constructor
  · intro h
    obtain ⟨u, hu, _⟩ := C150_version5 hn hs h
    exact ⟨_, v5_eq hn hs (.inr (names_parse (.dashed hu)))⟩
  · intro h
    exact ⟨_, v5_eq hn hs (.inr (names_parse (.dashed (C150_uuid hn h))))⟩

example : FixesAscii id ∧ (∀ s, 16 ≤ (exampleSum s).length) ∧ exampleBytes.length = 16 ∧
    v5 id exampleSum (fun _ => []) ⟨uuid id exampleBytes, []⟩ ⟨b "a", []⟩ =
      .ok ⟨b "61c830d4-4fc0-50b4-80d1-11ad9d10b8a7", []⟩ :=
  ⟨fun _ _ => rfl, exampleSum_length, rfl, by decide +kernel⟩

/-- Two hashes agree in the 122 bits that a UUID has room for. -/
def Agree (h h' : Bytes) : Prop :=
  (∀ i, i < 16 → i ≠ 6 → i ≠ 8 → h.getD i 0 = h'.getD i 0) ∧ (h.getD 6 0).toNat % 16 = (h'.getD 6 0).toNat % 16 ∧
    (h.getD 8 0).toNat % 64 = (h'.getD 8 0).toNat % 64

theorem stamp_agree {h h' : Bytes} (hl : 16 ≤ h.length) (hl' : 16 ≤ h'.length) : stamp h = stamp h' ↔ Agree h h' := by
  obtain ⟨a0, a1, a2, a3, a4, a5, a6, a7, a8, a9, a10, a11, a12, a13, a14, a15, r, rfl, e⟩ := stamp_bytes hl
  obtain ⟨b0, b1, b2, b3, b4, b5, b6, b7, b8, b9, b10, b11, b12, b13, b14, b15, r', rfl, e'⟩ := stamp_bytes hl'
  rw [e, e']
  have k6 : a6 % 16 + 0x50 = b6 % 16 + 0x50 ↔ a6.toNat % 16 = b6.toNat % 16 := by
    rw [← UInt8.toNat_inj, ver_toNat, ver_toNat]; omega
  have k8 : a8 % 64 + 0x80 = b8 % 64 + 0x80 ↔ a8.toNat % 64 = b8.toNat % 64 := by
    rw [← UInt8.toNat_inj, var_toNat, var_toNat]; omega
  simp only [List.cons.injEq, and_true, k6, k8]
  unfold Agree
  constructor
  · rintro ⟨rfl, rfl, rfl, rfl, rfl, rfl, h6, rfl, h8, rfl, rfl, rfl, rfl, rfl, rfl, rfl⟩
    refine ⟨fun i hi h6 h8 => ?_, h6, h8⟩
    interval_cases i <;> first | rfl | exact absurd rfl h6 | exact absurd rfl h8
  · rintro ⟨hi, h6, h8⟩
    exact ⟨hi 0 (by decide) (by decide) (by decide), hi 1 (by decide) (by decide) (by decide),
      hi 2 (by decide) (by decide) (by decide), hi 3 (by decide) (by decide) (by decide),
      hi 4 (by decide) (by decide) (by decide), hi 5 (by decide) (by decide) (by decide), h6,
      hi 7 (by decide) (by decide) (by decide), h8, hi 9 (by decide) (by decide) (by decide),
      hi 10 (by decide) (by decide) (by decide), hi 11 (by decide) (by decide) (by decide),
      hi 12 (by decide) (by decide) (by decide), hi 13 (by decide) (by decide) (by decide),
      hi 14 (by decide) (by decide) (by decide), hi 15 (by decide) (by decide) (by decide)⟩

/-- Two calls give one identifier exactly when the hashes of their namespaces and names agree in 122 bits; what is
hashed differs unless namespace and name are the same. -/
theorem C150_distinct {nfc sha1 : Bytes → Bytes} {errText : ParseErr → Bytes} {u u' s s' : Bytes} {m m' : List Mark}
    {name name' r r' : Marked Bytes} (hn : FixesAscii nfc) (hs : ∀ s, 16 ≤ (sha1 s).length) (h : Names u s)
    (h' : Names u' s') (hr : v5 nfc sha1 errText ⟨s, m⟩ name = .ok r) (hr' : v5 nfc sha1 errText ⟨s', m'⟩ name' = .ok r') :
    (r.v = r'.v ↔ Agree (sha1 (u ++ name.v)) (sha1 (u' ++ name'.v))) ∧
      (u ++ name.v = u' ++ name'.v ↔ u = u' ∧ name.v = name'.v) := by
  rw [v5_eq hn hs (.inr (names_parse h))] at hr
  rw [v5_eq hn hs (.inr (names_parse h'))] at hr'
  injection hr with hr
  injection hr' with hr'
  rw [← hr, ← hr']
  refine ⟨?_, ?_⟩
  · rw [← stamp_agree (hs _) (hs _)]
    exact text_inj (stamp_length (hs _)) (stamp_length (hs _))
  · have l := (parse_length (names_parse h)).2
    have l' := (parse_length (names_parse h')).2
    exact ⟨fun e => List.append_inj e (by omega), fun e => by rw [e.1, e.2]⟩

example : FixesAscii id ∧ (∀ s, 16 ≤ (exampleSum s).length) ∧ Names exampleBytes (b "6ba7b8109dad11d180b400c04fd430c8") ∧
    ¬Agree (exampleSum (exampleBytes ++ b "a")) (exampleSum (exampleBytes.set 3 0 ++ b "a")) := by
  refine ⟨fun _ _ => rfl, exampleSum_length, .plain rfl (undashed_iff.1 (by decide +kernel)), fun h => ?_⟩
  have := h.1 13 (by decide) (by decide) (by decide)
  revert this
  decide +kernel

/-! ## C151 -/

theorem digits_ok {n : Nat} (h : n < 100) :
    ((n / 10).toUInt8 + 48).toNat = 48 + n / 10 ∧ ((n % 10).toUInt8 + 48).toNat = 48 + n % 10 := by
  have e1 : (n / 10).toUInt8.toNat = n / 10 := by simp [Nat.toUInt8]; omega
  have e2 : (n % 10).toUInt8.toNat = n % 10 := by simp [Nat.toUInt8]; omega
  simp only [UInt8.toNat_add, UInt8.reduceToNat, e1, e2]
  omega

theorem new_says {salt password out : Bytes} {core : Bytes → Nat → Bytes → Bytes} {cost : Int} (hs : salt.length = 22)
    (hc : ∀ p c s, (core p c s).length = 31) (h : newFromPassword salt core password cost = .ok out) :
    SaysCost out (if cost < 4 then 10 else cost) ∧ cost ≤ 31 := by
  unfold newFromPassword at h
  dsimp only at h
  generalize hk : (if cost < 4 then 10 else cost) = k at *
  split at h
  · cases h
  · rename_i hr
    injection h with h
    have hd := digits_ok (n := k.toNat) (by omega)
    refine ⟨⟨_, _, k.toNat / 10, k.toNat % 10, salt ++ core password k.toNat salt, ?_, ?_, by omega, by omega, hd.1, hd.2, ?_⟩, ?_⟩
    · rw [← h]; simp only [List.append_assoc]
    · simp only [List.length_append, hs, hc]
    · omega
    · split at hk <;> omega

theorem new_ok {salt password : Bytes} {core : Bytes → Nat → Bytes → Bytes} {cost : Int} (h : cost ≤ 31) :
    ∃ out, newFromPassword salt core password cost = .ok out := by
  unfold newFromPassword
  have hk : ¬((if cost < 4 then 10 else cost) < 4 ∨ 31 < (if cost < 4 then 10 else cost)) := by split <;> omega
  dsimp only
  rw [if_neg hk]
  exact ⟨_, rfl⟩

/-- The number, if it is an integer of 64 bits. -/
def Num.IsInt (x : Num) (n : Int) : Prop := x = .fin n ∧ -2 ^ 63 ≤ n ∧ n < 2 ^ 63

theorem toInt_iff {x : Num} {n : Int} : x.toInt = some n ↔ Num.IsInt x n := by
  unfold Num.IsInt
  cases x with
  | inf s => simp [Num.toInt]
  | fin q =>
    unfold Num.toInt
    dsimp only
    unfold Hcl.fitsI64
    constructor
    · intro h
      split at h
      · rename_i hq
        injection h with h
        obtain ⟨h1, h2⟩ := hq
        simp only [Bool.and_eq_true, decide_eq_true_eq] at h2
        refine ⟨?_, ?_⟩
        · congr 1
          rw [← h]
          exact (Rat.den_eq_one_iff q).1 h1 |>.symm
        · rw [← h]; omega
      · cases h
    · rintro ⟨h, h1, h2⟩
      injection h with h
      subst h
      rw [if_pos]
      · simp
      · exact ⟨Rat.den_intCast n, by
          have e : ((n : Rat)).num = n := Rat.num_intCast n
          have k1 : -(2 ^ 63) ≤ ((n : Rat)).num := by omega
          have k2 : ((n : Rat)).num < 2 ^ 63 := by omega
          exact Bool.and_eq_true_iff.2 ⟨decide_eq_true k1, decide_eq_true k2⟩⟩

/-- Without a cost the hash says 10; with an integer from 4 to 31 it says this cost. -/
theorem C151_cost_partial {salt str out : Bytes} {core : Bytes → Nat → Bytes → Bytes} (hs : salt.length = 22)
    (hc : ∀ p c s, (core p c s).length = 31) :
    (bcrypt salt core str [] = .ok out → SaysCost out 10) ∧
      ∀ x n, Num.IsInt x n → 4 ≤ n → bcrypt salt core str [x] = .ok out → SaysCost out n ∧ n ≤ 31 := by
  constructor
  · intro h
    unfold bcrypt generateFromPassword at h
    simp only [asked, List.length_nil, Nat.not_lt_zero, if_false] at h
    split at h
    · cases h
    · exact (new_says hs hc h).1
  · intro x n hx hn h
    unfold bcrypt generateFromPassword at h
    simp only [asked, toInt_iff.2 hx, List.length_singleton, Nat.lt_irrefl, if_false] at h
    split at h
    · cases h
    · have := new_says hs hc h
      rw [if_neg (by omega)] at this
      exact this

/-- Costs below 4 are not used, and the call does not fail: the hash says 10. -/
theorem C151_cost_violated {salt str : Bytes} {core : Bytes → Nat → Bytes → Bytes} (hs : salt.length = 22)
    (hc : ∀ p c s, (core p c s).length = 31) (hl : str.length ≤ 72) {x : Num} {n : Int} (hx : Num.IsInt x n) (hn : n < 4) :
    ∃ out, bcrypt salt core str [x] = .ok out ∧ SaysCost out 10 := by
  obtain ⟨out, ho⟩ := new_ok (salt := salt) (password := str) (core := core) (cost := n) (by omega)
  have := new_says hs hc ho
  rw [if_pos hn] at this
  refine ⟨out, ?_, this.1⟩
  unfold bcrypt generateFromPassword
  simp only [asked, toInt_iff.2 hx, List.length_singleton, Nat.lt_irrefl, if_false]
  rw [if_neg (by omega), ho]

/-- When `bcrypt` answers: for texts of up to 72 bytes, with at most one cost, an integer up to 31. -/
theorem C151_answers {salt str : Bytes} {core : Bytes → Nat → Bytes → Bytes} {costs : List Num} :
    (∃ out, bcrypt salt core str costs = .ok out) ↔
      str.length ≤ 72 ∧ (costs = [] ∨ ∃ x n, costs = [x] ∧ Num.IsInt x n ∧ n ≤ 31) := by
  constructor
  · rintro ⟨out, h⟩
    unfold bcrypt at h
    split at h
    · cases h
    · rename_i o cost hcost
      split at h
      · cases h
      · rename_i hl
        unfold generateFromPassword at h
        split at h
        · cases h
        · rename_i hp
          refine ⟨by omega, ?_⟩
          match costs, hl, hcost with
          | [], _, _ => exact .inl rfl
          | [x], _, hcost =>
            refine .inr ⟨x, cost, rfl, toInt_iff.1 hcost, ?_⟩
            unfold newFromPassword at h
            dsimp only at h
            by_contra hk
            rw [if_neg (show ¬cost < 4 by omega), if_pos (.inr (by omega))] at h
            cases h
          | _ :: _ :: _, hl, _ => simp at hl
  · rintro ⟨hl, rfl | ⟨x, n, rfl, hx, hn⟩⟩
    · obtain ⟨out, ho⟩ := new_ok (salt := salt) (password := str) (core := core) (cost := 10) (by omega)
      refine ⟨out, ?_⟩
      unfold bcrypt generateFromPassword
      simp only [asked, List.length_nil, Nat.not_lt_zero, if_false]
      rw [if_neg (by omega), ho]
    · obtain ⟨out, ho⟩ := new_ok (salt := salt) (password := str) (core := core) (cost := n) (by omega)
      refine ⟨out, ?_⟩
      unfold bcrypt generateFromPassword
      simp only [asked, toInt_iff.2 hx, List.length_singleton, Nat.lt_irrefl, if_false]
      rw [if_neg (by omega), ho]

/-- Some salt, and a text in the place of the cipher. -/
example : (List.replicate 22 (46 : UInt8)).length = 22 ∧ (b "secret").length ≤ 72 ∧ Num.IsInt (.fin 12) 12 ∧
    Num.IsInt (.fin (-5)) (-5) ∧
    bcrypt (List.replicate 22 46) (fun _ _ _ => List.replicate 31 47) (b "secret") [.fin 12] =
      .ok (b "$2a$12$......................///////////////////////////////") ∧
    bcrypt (List.replicate 22 46) (fun _ _ _ => List.replicate 31 47) (b "secret") [.fin (-5)] =
      .ok (b "$2a$10$......................///////////////////////////////") ∧
    bcrypt (List.replicate 22 46) (fun _ _ _ => List.replicate 31 47) (b "secret") [.fin 32] = .error (.cost 32) := by
  refine ⟨rfl, by decide +kernel, ⟨rfl, by decide, by decide⟩, ⟨rfl, by decide, by decide⟩, by decide +kernel, by decide +kernel,
    by decide +kernel⟩

/-- Why `bcrypt` fails does not depend on the text but for its length. -/
theorem C151_hides {salt salt' str str' : Bytes} {core core' : Bytes → Nat → Bytes → Bytes} {costs : List Num} {e : HashErr}
    (hl : str.length = str'.length) (h : bcrypt salt core str costs = .error e) : bcrypt salt' core' str' costs = .error e := by
  unfold bcrypt generateFromPassword newFromPassword at h ⊢
  rw [← hl]
  generalize asked costs = o at h ⊢
  cases o with
  | none => exact h
  | some c =>
    dsimp only at h ⊢
    split at h
    · rename_i h1; rw [if_pos h1]; exact h
    · rename_i h1
      rw [if_neg h1]
      split at h
      · rename_i h2; rw [if_pos h2]; exact h
      · rename_i h2
        rw [if_neg h2]
        generalize (if c < 4 then (10 : Int) else c) = k at h ⊢
        split at h
        · rename_i h3; rw [if_pos h3]; exact h
        · cases h

example : (b "secret").length = (b "SECRET").length ∧
    bcrypt [] (fun _ _ _ => []) (b "secret") [.fin 99] = .error (.cost 99) := by
  refine ⟨rfl, by decide +kernel⟩
end Verif.Ident
