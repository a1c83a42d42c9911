import Verif.Lemmas.Cycle
set_option linter.unusedSimpArgs false
/-! HCL to another format and back (C142). -/
namespace Verif.Hcl

variable {ext : Ext} {c : Codec}

/-- C142 for JSON, for data as in `C47_partial` without empty lists and nil slices, and JSON that gives back data
of the same JSON value (`untyped` and `distinct` hold for everything that `encoding/json` gives): the HCL text that
comes back from JSON is read as the same data; if the data was of that kind before (sorted, whole numbers as
integers), exactly as the same, and the JSON text is the same again.

What is missing: the data excluded by the hypotheses; see `C142_violated`. -/
theorem C142_json_partial (ho : ∀ p ks, (ext.ord p ks).Perm ks) {t j : Bytes} {m : List (Bytes × GV)} {w : GV}
    (hd : hclDec ext t = .ok (.map m)) (he : c.jsonEnc (.map m) = .ok j) (hj : c.jsonDec j = .ok w)
    (hs : w.json = (GV.map m).json) (hu : untyped w) (hw : distinct w) (hne : m ≠ []) (hok : okBody m)
    (hex : exactM ext.nfc m) (hun : uniformM m) (hno : noEmptyM m) (ht : untypedM m) :
    hclToJson c ext t = .ok j ∧ ∃ t' m', jsonToHcl c j = .ok t' ∧ hclDec ext t' = .ok (.map m') ∧
      Same (.map m) (.map m') ∧ (canonM m = m → m' = m ∧ hclToJson c ext t' = .ok j) := by
  obtain ⟨t', h1, h2⟩ := cycle ho hs hu hw hne hok hex hun hno ht
  refine ⟨by simp only [hclToJson, hd, Out.bind, he, Out.ofExcept], t', canonM m,
    by simp only [jsonToHcl, hj, Out.ofExcept, Out.bind, h1], h2, ?_, fun hc => ⟨hc, ?_⟩⟩
  · have := same_canon ext.nfc (.map m) (by simp only [exact]; exact ⟨hex, okBody_nodup hok⟩)
    simpa only [GV.canon] using this
  · rw [hc] at h2
    simp only [hclToJson, h2, Out.bind, he, Out.ofExcept]

/-- C142 for YAML. -/
theorem C142_yaml_partial (ho : ∀ p ks, (ext.ord p ks).Perm ks) {t y : Bytes} {m : List (Bytes × GV)} {w : GV}
    (hd : hclDec ext t = .ok (.map m)) (he : c.yamlEnc (.map m) = .ok y) (hj : c.yamlDec y = .ok w)
    (hs : w.json = (GV.map m).json) (hu : untyped w) (hw : distinct w) (hne : m ≠ []) (hok : okBody m)
    (hex : exactM ext.nfc m) (hun : uniformM m) (hno : noEmptyM m) (ht : untypedM m) :
    hclToYaml c ext t = .ok y ∧ ∃ t' m', yamlToHcl c y = .ok t' ∧ hclDec ext t' = .ok (.map m') ∧
      Same (.map m) (.map m') ∧ (canonM m = m → m' = m ∧ hclToYaml c ext t' = .ok y) := by
  obtain ⟨t', h1, h2⟩ := cycle ho hs hu hw hne hok hex hun hno ht
  refine ⟨by simp only [hclToYaml, hd, Out.bind, he, Out.ofExcept], t', canonM m,
    by simp only [yamlToHcl, hj, Out.ofExcept, Out.bind, h1], h2, ?_, fun hc => ⟨hc, ?_⟩⟩
  · have := same_canon ext.nfc (.map m) (by simp only [exact]; exact ⟨hex, okBody_nodup hok⟩)
    simpa only [GV.canon] using this
  · rw [hc] at h2
    simp only [hclToYaml, h2, Out.bind, he, Out.ofExcept]

/-- Data of an HCL text, and what JSON makes of it: other order, numbers as `float64`. -/
def exCycle : List (Bytes × GV) :=
  [(b "a", .map [(b "x 1", .map [(b "n", .int 10)]), (b "y", .map [(b "n", .flt (33 / 16))])]),
   (b "c", .list [.int 7, .str (b "x"), .map [(b "d", .bool true)]]), (b "z", .nil)]

def exCycleJson : GV := .map
  [(b "z", .nil), (b "c", .list [.flt 7, .str (b "x"), .map [(b "d", .bool true)]]),
   (b "a", .map [(b "y", .map [(b "n", .flt (33 / 16))]), (b "x 1", .map [(b "n", .flt 10)])])]

def exCycleText : Bytes := b "a \"y\" {
  n = 2.0625
}
c = [7, \"x\", {d = true}]
a \"x 1\" {
  n = 10
}
z = null()
"

def exCycleCodec : Codec :=
  ⟨fun _ => .ok exCycleJson, fun _ => .ok (b "{}"), fun _ => .ok exCycleJson, fun _ => .ok (b "y")⟩

example : hclToJson exCycleCodec exExtR exCycleText = .ok (b "{}") ∧
    ∃ t' m', jsonToHcl exCycleCodec (b "{}") = .ok t' ∧ hclDec exExtR t' = .ok (.map m') ∧
      Same (.map exCycle) (.map m') ∧
      (canonM exCycle = exCycle → m' = exCycle ∧ hclToJson exCycleCodec exExtR t' = .ok (b "{}")) := by
  have id1 : ∀ c : UInt8, identStart c = true → IsIdent [c] := fun c h => ⟨h, by simp⟩
  have safe : ∀ s : Bytes, utf8Valid s = true → s.all (fun c => c ≠ 34 ∧ c ≠ 92 ∧ c ≠ 10 ∧ c ≠ 13 ∧ c ≠ 123) = true → SafeStr s := by
    intro s h1 h2
    rw [List.all_eq_true] at h2
    have h3 : ∀ c ∈ s, c ≠ 34 ∧ c ≠ 92 ∧ c ≠ 10 ∧ c ≠ 13 ∧ c ≠ 123 := fun c hc => by simpa using h2 c hc
    exact ⟨h1, fun c hc => ⟨(h3 c hc).1, (h3 c hc).2.1, (h3 c hc).2.2.1, (h3 c hc).2.2.2.1⟩,
      fun h => (h3 123 (h.subset (by simp))).2.2.2.2 rfl, fun h => (h3 123 (h.subset (by simp))).2.2.2.2 rfl⟩
  refine C142_json_partial (w := exCycleJson) (fun _ _ => List.reverse_perm _) (by decide +kernel) rfl rfl ?_ ?_ ?_ (by decide)
    ?_ ?_ ?_ ?_ ?_
  · simp only [exCycleJson, exCycle, GV.json, jsonM, jsonL]
    have h1 : Det.ltB (b "x 1") (b "y") = true := by decide
    have h2 : Det.ltB (b "y") (b "x 1") = false := by decide
    have h3 : b "y" ≠ b "x 1" := by decide
    have h4 : Det.ltB (b "c") (b "z") = true := by decide
    have h5 : Det.ltB (b "z") (b "c") = false := by decide
    have h6 : b "z" ≠ b "c" := by decide
    have h7 : Det.ltB (b "a") (b "z") = true := by decide
    have h8 : Det.ltB (b "z") (b "a") = false := by decide
    have h9 : b "z" ≠ b "a" := by decide
    have h10 : Det.ltB (b "a") (b "c") = true := by decide
    have h11 : Det.ltB (b "c") (b "a") = false := by decide
    have h12 : b "c" ≠ b "a" := by decide
    simp [Det.insertK, h1, h2, h3, h3.symm, h4, h5, h6, h6.symm, h7, h8, h9, h9.symm, h10, h11, h12, h12.symm]
  · simp [exCycleJson, untyped, untypedM, untypedL]
  · simp only [exCycleJson, distinct, distinctM, distinctL, and_true]
    decide
  · simp only [exCycle, okBody, okLine, okLabels, okElems, okElem, okObj, okMember, and_true]
    refine ⟨⟨id1 _ (by decide), by decide, by decide⟩, ⟨fun _ => ⟨safe _ (by decide) (by decide), ⟨fun h => absurd h (by decide),
      fun _ => ⟨id1 _ (by decide), by decide, by decide⟩⟩, safe _ (by decide) (by decide), ⟨fun h => absurd h (by decide),
      fun _ => ⟨id1 _ (by decide), by decide, by decide⟩⟩⟩, fun h => absurd h (by decide)⟩,
      ⟨id1 _ (by decide), by decide, by decide⟩, ⟨trivial, safe _ (by decide) (by decide), id1 _ (by decide), by decide⟩,
      id1 _ (by decide), by decide, by decide⟩
  · simp only [exCycle, exactM, exactL, exact, NonZero, and_true, true_and]
    refine ⟨⟨⟨⟨⟨10, by norm_num, by decide, by decide⟩, by decide⟩, ⟨.inr ⟨by norm_num, ?_, ⟨33, -4, by norm_num, by norm_num⟩,
      2062500, by norm_num⟩, by decide⟩⟩, by decide⟩, by decide, ⟨7, by norm_num, by decide, by decide⟩, by decide, rfl, by decide⟩
    rintro ⟨n, h⟩
    have h2 : (33 : Rat) = ((16 * n : Int) : Rat) := by push_cast; linarith
    have h3 : (33 : Int) = 16 * n := by exact_mod_cast h2
    omega
  · simp only [exCycle, uniformM, uniform, uniformL, and_true]
    refine ⟨fun _ => ⟨⟨⟨fun h => absurd h (by decide), fun _ => trivial⟩, ⟨fun h => absurd h (by decide), fun _ => trivial⟩⟩, .inr ?_⟩,
      fun h => absurd h (by decide)⟩
    decide
  · simp [exCycle, noEmptyM, noEmpty, noEmptyL]
  · simp [exCycle, untyped, untypedM, untypedL]

/-- That data is of the kind that comes back. -/
example : canonM exCycle = exCycle := by decide +kernel

/-- C142 does not hold as stated: JSON numbers are read as `float64`, which 2^53+1 is not, so the number changes
(to 2^53 if it is rounded as `encoding/json` does). -/
theorem C142_violated {j : Bytes} (he : c.jsonEnc (.map [(b "a", .int (2 ^ 53 + 1))]) = .ok j)
    (hj : c.jsonDec j = .ok (.map [(b "a", .flt (2 ^ 53))])) :
    hclToJson c exExt (b "a = 9007199254740993\n") = .ok j ∧
    ∃ t', jsonToHcl c j = .ok t' ∧ hclDec exExt t' = .ok (.map [(b "a", .int (2 ^ 53))]) := by
  have h1 : unmarshalMap exExt (b "a = 9007199254740993\n") [] = .ok [(b "a", .int (2 ^ 53 + 1))] := by decide +kernel
  have h2 : marshal (.map [(b "a", .flt (2 ^ 53))]) = .ok (some (b "\n  a = 9007199254740992\n")) := by decide +kernel
  have h3 : unmarshalMap exExt (b "\n  a = 9007199254740992\n") [] = .ok [(b "a", .int (2 ^ 53))] := by decide +kernel
  refine ⟨by simp only [hclToJson, hclDec, h1, Out.map, Out.bind, he, Out.ofExcept], b "\n  a = 9007199254740992\n", ?_, ?_⟩
  · simp only [jsonToHcl, hj, Out.ofExcept, Out.bind, hclEnc, h2, Out.map, Option.getD]
  · simp only [hclDec, h3, Out.map, Out.bind]

/-- The number is no `float64`. -/
theorem C142_no_float : ¬ IsFloat 53 ((2 ^ 53 + 1 : Int) : Rat) := by
  rintro ⟨k, e, h, hk⟩
  rcases le_or_gt e 0 with he | he
  · have h1 : ((2 ^ 53 + 1 : Int) : Rat) ≤ |(k : Rat)| * 1 := by
      rw [h]
      refine (le_abs_self _).trans ?_
      rw [abs_mul]
      refine mul_le_mul_of_nonneg_left ?_ (abs_nonneg _)
      rw [abs_of_pos (by positivity)]
      exact zpow_le_one_of_nonpos₀ (by norm_num) he
    have h2 : (2 ^ 53 + 1 : Int) ≤ |k| := by
      have := h1; rw [mul_one] at this; exact_mod_cast this
    omega
  · obtain ⟨n, rfl⟩ : ∃ n : Nat, e = n + 1 := ⟨(e - 1).toNat, by omega⟩
    have h1 : ((2 ^ 53 + 1 : Int) : Rat) = ((k * 2 ^ n * 2 : Int) : Rat) := by
      rw [h, zpow_add₀ (by norm_num), zpow_natCast]; push_cast; ring
    have h2 : (2 ^ 53 + 1 : Int) = k * 2 ^ n * 2 := by exact_mod_cast h1
    omega

/-- A codec that rounds. -/
def exRound : Codec :=
  ⟨fun _ => .ok (.map [(b "a", .flt (2 ^ 53))]), fun _ => .ok (b "{\"a\":9007199254740993}"), fun _ => .error (), fun _ => .error ()⟩

example : hclToJson exRound exExt (b "a = 9007199254740993\n") = .ok (b "{\"a\":9007199254740993}") :=
  (C142_violated rfl rfl).1

end Verif.Hcl
