import Verif.Props.HclText
set_option linter.unusedSimpArgs false
/-! Texts in braces, for C108. -/
namespace Verif.Hcl
open Det (ltB insertK)

variable {ext : Ext}

/-- The first byte after white space, and the last one before white space. -/
def InBraces (t : Bytes) : Prop := ∃ s u s', t = s ++ 123 :: u ++ 125 :: s' ∧ (∀ c ∈ s, isSpace c = true) ∧ ∀ c ∈ s', isSpace c = true

theorem trim_inBraces {t : Bytes} (h : InBraces t) : ∃ u, trimSpace t = 123 :: u ++ [125] := by
  obtain ⟨s, u, s', rfl, h1, h2⟩ := h
  refine ⟨u, ?_⟩
  have e1 : (s ++ 123 :: u ++ 125 :: s').dropWhile isSpace = 123 :: u ++ 125 :: s' := by
    rw [List.append_assoc, List.dropWhile_append_of_pos h1]
    rfl
  have e2 : (123 :: u ++ 125 :: s').reverse = s'.reverse ++ 125 :: (u.reverse ++ [123]) := by simp
  rw [trimSpace, e1, e2, List.dropWhile_append_of_pos (by simpa using h2)]
  have : (125 :: (u.reverse ++ [123])).dropWhile isSpace = 125 :: (u.reverse ++ [123]) := rfl
  rw [this]
  simp

/-- The value of the only attribute. -/
theorem decodeBody_one (ho : ∀ p ks, (ext.ord p ks).Perm ks) (k : Bytes) (e : Expr) :
    decodeBody ext [] (.mk [(k, e)] []) = (nativeE ext e).map fun v => [(k, v)] := by
  have h1 : ext.ord [] [k] = [k] := List.perm_singleton.1 (ho _ _)
  have h0 : ∀ p, ext.ord p [] = [] := fun p => List.perm_nil.1 (ho p [])
  simp only [decodeBody, GoMap.keys, List.map_cons, List.map_nil, h1, assignAll, attrVal, GoMap.get?, if_true, decodeBlocks, blockResults,
    typesOf, List.filter_nil, dedupB, List.any_nil, Bool.false_eq_true, if_false]
  cases nativeE ext e <;> simp [Out.bind, Out.map, h0, assignAll, insertK]

theorem unmarshalMap_one (ho : ∀ p ks, (ext.ord p ks).Perm ks) {t k : Bytes} {e : Expr} (hp : parseConfig t = .ok (.mk [(k, e)] [])) :
    unmarshalMap ext t [] = (nativeE ext e).map fun v => [(k, v)] := by
  have : decodeMap ext t = (nativeE ext e).map fun v => [(k, v)] := by
    rw [← decodeBody_one ho, decodeMap, if_neg, if_neg]
    · rw [hp]; rfl
    · rintro ⟨h1, -⟩; exact parse_brace hp h1
    · rw [trimSpace_eq_nil]
      intro hb
      have := parse_blank hp hb
      cases this
  rw [unmarshalMap, this]
  cases nativeE ext e <;> simp [Out.map, Out.bind, insertK]

end Verif.Hcl
