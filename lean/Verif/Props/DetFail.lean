import Verif.Lemmas.DetFail
import Verif.Props.Det
/-!
# Property C119: `JsonUnmarshal` swallows no failure

Everything inside a document is decoded by `encoding/json` or by a nested `JsonUnmarshal`.  If one of these fails, the whole call does.
-/
namespace Verif.Det

/-- **C119: a success depends on no failed part.** If `JsonUnmarshal` succeeds, it gives the same with every `encoding/json` that agrees
with this one where this one does not fail. -/
theorem C119_stable {env : Env} {ext ext' : Ext} (hx : ext.Le ext') {fuel : Nat} {ref : Ref} {tgt t : Inst} {spec : Option Cls} {dat : Doc}
    (h : jsonUnmarshal env ext fuel ref tgt spec dat = .ret t false) : jsonUnmarshal env ext' fuel ref tgt spec dat = .ret t false := by
  cases spec with
  | none => exact plain_le hx h
  | some s => exact unmarshalN_le hx _ _ h

/-- `encoding/json` as in `exExt`, but texts that it refuses are decoded as `v`. -/
def laxExt (v : Nat) : Ext where
  zero := exExt.zero
  leaf f w j := some ((exExt.leaf f w j).getD (.leaf v))
  plain i j := if (exExt.plain i j).2 then ([(b "Radius", .leaf v)], false) else exExt.plain i j
  fold := exExt.fold
  structOf := exExt.structOf
  ord := exExt.ord

theorem lax_le (v : Nat) : exExt.Le (laxExt v) where
  zero := rfl
  fold := rfl
  structOf := rfl
  ord := rfl
  leaf f w j x h := by show some ((exExt.leaf f w j).getD (.leaf v)) = some x; rw [h]; rfl
  plain i j fs h := by show (if (exExt.plain i j).2 then _ else _) = _; rw [h]; rfl

example : jsonUnmarshal exEnv (laxExt 7) 9 exRef exTarget (some exSpec) (some exDoc) = .ret exResult false :=
  C119_stable (lax_le 7) exDecode

/-- **C119: failures are reported.** If two versions that agree with `ext` where it does not fail give different results, `ext` fails on something that matters,
and then the call does not succeed. -/
theorem C119_reported {env : Env} {ext ext₁ ext₂ : Ext} (h₁ : ext.Le ext₁) (h₂ : ext.Le ext₂) {fuel : Nat} {ref : Ref} {tgt : Inst}
    {spec : Option Cls} {dat : Doc}
    (h : jsonUnmarshal env ext₁ fuel ref tgt spec dat ≠ jsonUnmarshal env ext₂ fuel ref tgt spec dat) (t : Inst) :
    jsonUnmarshal env ext fuel ref tgt spec dat ≠ .ret t false :=
  fun hs => h ((C119_stable h₁ hs).trans (C119_stable h₂ hs).symm)

/-- A picture whose second shape is a text instead of an object: the lax versions disagree on it, so the call fails. -/
def badDoc : J := .obj [(b "shapes", .arr [.obj [], .atom (b "x")])]
def listSpec : Cls := .mk (b "Picture") [(b "Shapes", .list [circle])]

example (t : Inst) : jsonUnmarshal exEnv exExt 9 exRef exTarget (some listSpec) (some badDoc) ≠ .ret t false := by
  refine C119_reported (lax_le 7) (lax_le 8) ?_ t
  show decode _ _ _ _ _ _ _ _ ≠ decode _ _ _ _ _ _ _ _
  rw [decode_eqN 2 (by simp [Cls.depth, CVal.depth, depthF, depthL, listSpec, circle]),
    decode_eqN 2 (by simp [Cls.depth, CVal.depth, depthF, depthL, listSpec, circle])]
  intro h
  have h1 : ∀ v, jsonUnmarshalN exEnv (laxExt v) 9 2 exRef [] exTarget listSpec (some badDoc) = .ret ⟨2, [
      (b "Name", .leaf 0), (b "Shapes", .slice [.ref 0 [(b "Radius", .leaf 0)], .ref 0 [(b "Radius", .leaf v)]]), (b "ByName", .leaf 0),
      (b "ByPair", .leaf 0), (b "Main", .leaf 0)]⟩ false := fun v => rfl
  rw [h1, h1] at h
  injection h with h
  injection h with _ h
  simp at h

end Verif.Det
