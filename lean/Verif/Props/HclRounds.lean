import Verif.Lemmas.HclNumbers
import Verif.Lemmas.HclStable
import Verif.Props.HclText
set_option linter.unusedSimpArgs false
/-! Numbers in `Marshal`, and repeated round trips of generic data (C137-C139). -/
namespace Verif.Hcl

variable {ext : Ext}

/-- C137 for integers of 64 bits: what `Marshal` writes depends on the values of numbers, not on their Go
types.

What is missing: larger integers (of the type `uint64`), see `C137_violated`. -/
theorem C137_partial {v w : GV} (hv : Ints64 v) (hw : Ints64 w) (h : v.floats = w.floats) : marshal v = marshal w := by
  unfold marshal
  rw [← encV_floats 0 none v hv, ← encV_floats 0 none w hw, h]

/-- The same data from JSON and from YAML. -/
example : marshal (.map [(b "a", .list [.flt 1, .flt (1 / 2)]), (b "c", .map [(b "d", .flt (-7))])]) =
    marshal (.map [(b "a", .list [.int 1, .flt (1 / 2)]), (b "c", .map [(b "d", .int (-7))])]) := by
  refine C137_partial (fun n o => ?_) (fun n o => ?_) ?_
  · exfalso
    rcases o with _ | _ | ⟨hm, o⟩
    simp only [List.mem_cons, Prod.mk.injEq, List.not_mem_nil, or_false] at hm
    rcases hm with ⟨-, rfl⟩ | ⟨-, rfl⟩
    · rcases o with _ | ⟨hm, o⟩ | _
      simp only [List.mem_cons, List.not_mem_nil, or_false] at hm
      rcases hm with rfl | rfl <;> cases o
    · rcases o with _ | _ | ⟨hm, o⟩
      simp only [List.mem_cons, Prod.mk.injEq, List.not_mem_nil, or_false] at hm
      obtain ⟨-, rfl⟩ := hm
      cases o
  · rcases o with _ | _ | ⟨hm, o⟩
    simp only [List.mem_cons, Prod.mk.injEq, List.not_mem_nil, or_false] at hm
    rcases hm with ⟨-, rfl⟩ | ⟨-, rfl⟩
    · rcases o with _ | ⟨hm, o⟩ | _
      simp only [List.mem_cons, List.not_mem_nil, or_false] at hm
      rcases hm with rfl | rfl <;> cases o
      exact ⟨1, rfl, by decide, by decide⟩
    · rcases o with _ | _ | ⟨hm, o⟩
      simp only [List.mem_cons, Prod.mk.injEq, List.not_mem_nil, or_false] at hm
      obtain ⟨-, rfl⟩ := hm
      cases o
      exact ⟨-7, rfl, by decide, by decide⟩
  · simp [GV.floats, floatsM, floatsL]

/-- C137 does not hold as stated: 2^63 as `uint64` (from YAML) is written, as `float64` (from JSON) it is an
error. -/
theorem C137_violated :
    (GV.map [(b "a", .int (2 ^ 63))]).floats = (GV.map [(b "a", .flt (2 ^ 63))]).floats ∧
    marshal (.map [(b "a", .int (2 ^ 63))]) = .ok (some (b "\n  a = 9223372036854775808\n")) ∧
    marshal (.map [(b "a", .flt (2 ^ 63))]) = .error () := by
  refine ⟨by simp only [GV.floats, floatsM]; norm_num, by decide +kernel, by decide +kernel⟩

/-- C137: a JSON text gives the same HCL text whether it is converted at once or by way of YAML, if YAML keeps the
data but for the types of numbers. -/
theorem C137_yaml {c : Codec} {raw y : Bytes} {v w : GV} (hj : c.jsonDec raw = .ok v) (he : c.yamlEnc v = .ok y)
    (hd : c.yamlDec y = .ok w) (h : v.floats = w.floats) (hv : Ints64 v) (hw : Ints64 w) :
    jsonToYaml c raw = .ok y ∧ yamlToHcl c y = jsonToHcl c raw := by
  refine ⟨by simp only [jsonToYaml, hj, he, Out.ofExcept, Out.bind], ?_⟩
  simp only [yamlToHcl, jsonToHcl, hd, hj, Out.ofExcept, Out.bind, hclEnc, C137_partial hv hw h]

/-- A codec for `{"a": 1}`: JSON gives a `float64`, YAML an `int`. -/
def exYaml : Codec :=
  ⟨fun _ => .ok (.map [(b "a", .flt 1)]), fun _ => .error (), fun _ => .ok (.map [(b "a", .int 1)]), fun _ => .ok (b "a: 1\n")⟩

example : jsonToYaml exYaml (b "{\"a\": 1}") = .ok (b "a: 1\n") ∧
    yamlToHcl exYaml (b "a: 1\n") = jsonToHcl exYaml (b "{\"a\": 1}") := by
  refine C137_yaml rfl rfl rfl (by simp [GV.floats, floatsM]) (fun n o => ?_) (fun n o => ?_)
  · exfalso
    rcases o with _ | _ | ⟨hm, o⟩
    simp only [List.mem_cons, Prod.mk.injEq, List.not_mem_nil, or_false] at hm
    obtain ⟨-, rfl⟩ := hm
    cases o
  · rcases o with _ | _ | ⟨hm, o⟩
    simp only [List.mem_cons, Prod.mk.injEq, List.not_mem_nil, or_false] at hm
    obtain ⟨-, rfl⟩ := hm
    cases o
    exact ⟨1, rfl, by decide, by decide⟩

/-- C138: `Marshal` of generic data fails exactly if some part of it is a floating point number that is negative
and not whole, or whole and of more than 64 bits. -/
theorem C138 {v : GV} : marshal v = .error () ↔ ∃ q, Occurs (.flt q) v ∧ BadFloat q := encV_error 0 none v

example : marshal (.map [(b "a", .list [.int 1, .map [(b "x", .flt (-1 / 2))]])]) = .error () :=
  C138.2 ⟨-1 / 2, .member (k := b "a") (v := .list [.int 1, .map [(b "x", .flt (-1 / 2))]]) (by simp)
      (.elem (v := .map [(b "x", .flt (-1 / 2))]) (by simp) (.member (k := b "x") (v := .flt (-1 / 2)) (by simp) .here)),
    .inl ⟨fun ⟨n, h⟩ => by
      have h2 : (-1 : Rat) = ((2 * n : Int) : Rat) := by push_cast; linarith
      have h3 : (-1 : Int) = 2 * n := by exact_mod_cast h2
      omega, by norm_num⟩⟩

/-- C139 for data as in `C47_partial` without empty lists: after one round trip, another one gives exactly the
same data.

What is missing: empty lists (see `C139_violated`), and the data excluded by C47. -/
theorem C139_partial (ho : ∀ p ks, (ext.ord p ks).Perm ks) {m : List (Bytes × GV)} (hne : m ≠ []) (hok : okBody m)
    (hex : exactM ext.nfc m) (hun : uniformM m) (hno : noEmptyM m) :
    ∃ t m' t', marshal (.map m) = .ok (some t) ∧ unmarshalMap ext t [] = .ok m' ∧
      marshal (.map m') = .ok (some t') ∧ unmarshalMap ext t' [] = .ok m' := by
  have hexm : exact ext.nfc (.map m) := by simp only [exact]; exact ⟨hex, okBody_nodup hok⟩
  have key : ∀ m : List (Bytes × GV), m ≠ [] → okBody m → exactM ext.nfc m → uniformM m →
      ∃ t, marshal (.map m) = .ok (some t) ∧ unmarshalMap ext t [] = .ok (canonM m) := by
    intro m hne hok hex hun
    obtain ⟨o, ho'⟩ := encV_total ext.nfc (.map m) (by simp only [exact]; exact ⟨hex, okBody_nodup hok⟩) 0 none
    obtain ⟨t, rfl, hp⟩ := marshal_body hok ho'
    refine ⟨t, ho', ?_⟩
    unfold unmarshalMap
    rw [decodeMap_back ho hne hok hex hun hp]
    simp only [Out.map, Out.bind, foldl_sorted_id (sorted_canonM m)]
  obtain ⟨t, h1, h2⟩ := key m hne hok hex hun
  have hk := kept (nfc := ext.nfc) (.map m) hexm hno
  have hex' := hk.exact
  simp only [GV.canon, exact] at hex'
  have hkm := keptM (nfc := ext.nfc) m hex hno
  have hmem : ∀ {P : Bytes × GV → Prop}, (∀ k v, (k, v) ∈ m → P (k, v.canon)) → ∀ e ∈ canonM m, P e := by
    rintro P hP ⟨k, w⟩ he
    obtain ⟨v, hv, e⟩ := (mem_canonM (okBody_nodup hok)).1 he
    simp only at hv e
    subst e
    exact hP k v hv
  obtain ⟨t', h3, h4⟩ := key (canonM m) (canonM_ne_nil hne)
    (okBody_iff.2 ⟨nodup_canonM m, hmem fun k v hv =>
      ⟨((okBody_iff.1 hok).2 _ hv).1, (hkm _ hv).line 0 ((okBody_iff.1 hok).2 _ hv).2⟩⟩) hex'.1
    (uniformM_iff.2 (hmem fun k v hv => (hkm _ hv).uniform _ (uniformM_iff.1 hun _ hv)))
  have hc := canon_canon hexm
  simp only [GV.canon, GV.map.injEq] at hc
  rw [hc] at h4
  exact ⟨t, canonM m, t', h1, h2, h3, h4⟩

example : ∃ t m' t', marshal (.map exData) = .ok (some t) ∧ unmarshalMap exExtR t [] = .ok m' ∧
      marshal (.map m') = .ok (some t') ∧ unmarshalMap exExtR t' [] = .ok m' :=
  C139_partial (fun _ _ => List.reverse_perm _) (by decide) exOk exExact exUniform
    (by simp [exData, noEmptyM, noEmpty, noEmptyL])

/-- C139 does not hold as stated: `a = []` is read, but what `Marshal` writes for it afterwards is not HCL. -/
theorem C139_violated :
    ∃ m t, unmarshalMap exExt (b "a = []\n") [] = .ok m ∧ marshal (.map m) = .ok (some t) ∧
      unmarshalMap exExt t [] = .err :=
  ⟨[(b "a", .nilList)], b "\n  a = \n", by decide +kernel, by decide +kernel, by decide +kernel⟩

/-- C47: for data as in `C47_partial`, equal texts come from equal data. -/
theorem C47_injective {m m' : List (Bytes × GV)} (hne : m ≠ []) (hne' : m' ≠ []) (hok : okBody m) (hok' : okBody m')
    (hex : exactM id m) (hex' : exactM id m') (hun : uniformM m) (hun' : uniformM m')
    (h : marshal (.map m) = marshal (.map m')) : ∃ d, Same (.map m) d ∧ Same (.map m') d := by
  have ho : ∀ (p : List Bytes) (ks : List Bytes), (exExt.ord p ks).Perm ks := fun _ _ => .refl _
  obtain ⟨t, r, h1, h2, h3⟩ := C47_partial (ext := exExt) ho hne hok hex hun
  obtain ⟨t', r', h1', h2', h3'⟩ := C47_partial (ext := exExt) ho hne' hok' hex' hun'
  rw [h, h1'] at h1
  cases h1
  rw [h2] at h2'
  cases h2'
  exact ⟨_, h3, h3'⟩

example : ∃ d, Same (.map [(b "a", .int 1)]) d ∧ Same (.map [(b "a", .flt 1)]) d := by
  have i : IsIdent (b "a") := by
    show identStart 97 = true ∧ ∀ x ∈ ([] : Bytes), identCont x = true
    exact ⟨by decide, by simp⟩
  refine C47_injective (by simp) (by simp) ?_ ?_ ?_ ?_ ?_ ?_ (by decide +kernel)
  · simp only [okBody, okLine, and_true]; exact ⟨i, by decide, by simp⟩
  · simp only [okBody, okLine, and_true]; exact ⟨i, by decide, by simp⟩
  · simp only [exactM, exact, and_true]; exact ⟨1, rfl, by decide, by decide⟩
  · simp only [exactM, exact, and_true]; exact .inl ⟨1, rfl, by decide, by decide⟩
  · simp only [uniformM, uniform, and_true]
  · simp only [uniformM, uniform, and_true]

end Verif.Hcl
