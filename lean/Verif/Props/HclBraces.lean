import Verif.Lemmas.HclBraces
set_option linter.unusedSimpArgs false
/-! `Unmarshal` of an object in braces or a list in brackets (C108). -/
namespace Verif.Hcl
open Det (ltB insertK)

variable {ext : Ext}

/-- **C108: braces.** Full statement: a text in braces is decoded into a map if and only if it is an object, and then as the value of
an attribute is. It is false, see `C108_violated`. Missing here: texts with more than the object.

A text in braces that is an object is decoded into a map as the value of an attribute is. -/
theorem C108_braces_partial (ho : ∀ p ks, (ext.ord p ks).Perm ks) {t : Bytes} {m : List (Expr × Expr)} (hb : InBraces t)
    (hp : parseConfig (b "x = " ++ t) = .ok (.mk [(b "x", .object m)] [])) (r : List (Bytes × GV)) :
    unmarshalMap ext t [] = .ok r ↔ unmarshalMap ext (b "x = " ++ t) [] = .ok [(b "x", .map r)] := by
  rw [unmarshalMap_one ho hp]
  obtain ⟨u, hu⟩ := trim_inBraces hb
  have hd : decodeMap ext t = nativeO ext m [] := by
    rw [decodeMap, hu, if_neg (by simp), if_pos ⟨rfl, List.getLast?_concat ..⟩]
    simp [parseX, hp, Out.ofParse, Out.bind, Body.attrs, GoMap.get?]
  simp only [unmarshalMap, hd, nativeE]
  cases h : nativeO ext m [] with
  | ok obj =>
    have hs : SortedK obj := decodeMap_sorted (hd.trans h)
    simp [Out.map, Out.bind, foldl_sorted_id hs]
  | err => simp [Out.map, Out.bind]
  | panic => simp [Out.map, Out.bind]
  | unsupported => simp [Out.map, Out.bind]

/-- **C108: brackets.** A text that is a list is decoded into a slice as the value of an attribute is; the empty list is nil
there. -/
theorem C108_brackets_partial (ho : ∀ p ks, (ext.ord p ks).Perm ks) {t : Bytes} {l : List Expr}
    (hp : parseConfig (b "x = " ++ t) = .ok (.mk [(b "x", .tuple l)] [])) (r : List GV) :
    unmarshalSlice ext t [] = .ok r ↔ unmarshalMap ext (b "x = " ++ t) [] = .ok [(b "x", if r = [] then .nilList else .list r)] := by
  rw [unmarshalMap_one ho hp]
  have hd : decodeSlice ext t = nativeL ext l := by
    simp [decodeSlice, parseX, hp, Out.ofParse, Out.bind, Body.attrs, GoMap.get?]
  simp only [unmarshalSlice, hd, nativeE]
  cases h : nativeL ext l with
  | ok vs =>
    simp only [Out.map, Out.bind, List.nil_append, Out.ok.injEq, List.cons.injEq, Prod.mk.injEq, true_and, and_true]
    cases vs with
    | nil => cases r <;> simp [mkList]
    | cons v vs => cases r <;> simp [mkList]
  | err => simp [Out.map, Out.bind]
  | panic => simp [Out.map, Out.bind]
  | unsupported => simp [Out.map, Out.bind]

/-- **C108 is violated: trailing text.** What follows the object in braces or the list in brackets is ignored if it looks like more
attributes or blocks, although the whole is neither a document nor an expression. -/
theorem C108_violated :
    unmarshalMap exExt (b "{a = 1}\nb = {c = 2}") [] = .ok [(b "a", .int 1)] ∧
    parseConfig (b "{a = 1}\nb = {c = 2}") = .error .invalid ∧
    unmarshalSlice exExt (b "[1]\ny {\n  z = 2\n}\n") [] = .ok [.int 1] := by
  refine ⟨by decide +kernel, by decide +kernel, by decide +kernel⟩

def exBraces : Bytes := b " {a = 1, b = [true]}\n"

-- The hypotheses are met.
example : InBraces exBraces ∧ parseConfig (b "x = " ++ exBraces) =
    .ok (.mk [(b "x", .object [(.ident (b "a"), .num 1), (.ident (b "b"), .tuple [.ident (b "true")])])] []) ∧
    unmarshalMap exExt exBraces [] = .ok [(b "a", .int 1), (b "b", .list [.bool true])] :=
  ⟨⟨[32], b "a = 1, b = [true]", [10], by decide +kernel, by decide +kernel, by decide +kernel⟩, by decide +kernel, by decide +kernel⟩

example : parseConfig (b "x = " ++ b "[1, {a = 2}]") = .ok (.mk [(b "x", .tuple [.num 1, .object [(.ident (b "a"), .num 2)]])] []) ∧
    unmarshalSlice exExt (b "[1, {a = 2}]") [] = .ok [.int 1, .map [(b "a", .int 2)]] := ⟨by decide +kernel, by decide +kernel⟩

end Verif.Hcl
