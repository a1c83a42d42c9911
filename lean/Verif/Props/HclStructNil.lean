import Verif.Props.HclStruct
/-!
# C64: blocks for fields that a specification names without a struct

`NewValue` of a nil `*Struct` (utils/common.go L88-89) is a value whose getters all return nil: `CVal.none`, see C171.
-/
namespace Verif.HclS
open Det (CVal)

/-- After a call that succeeds, a field specified without a struct holds what it held before, whatever the blocks for it are. -/
theorem C64_nil {env : Env} {ext : Ext} {root n node cls : Nat} {path : List Bytes} {st st' : St} {fs fs' : Fields} {obj : List (Bytes × CVal)}
    {labels : List Bytes} {body : Body} {f : Fld} (hord : ∀ p l, (ext.ord p l).Perm l) (hd : DistinctNames env n cls)
    (hrun : decode env ext root (n + 1) path st node cls fs obj labels body = (fs', .ok st'))
    (hm : f ∈ (env.struct cls).fields) (hf : Decodes f) (hspec : GoMap.get? obj f.name = some .none) (ha : f.tag ∉ GoMap.keys body.attrs) :
    GoMap.get? fs' f.name = GoMap.get? fs f.name := by
  obtain ⟨p, hp, hr⟩ := decode_ok hrun
  obtain ⟨h1, h2, hpre, _, _, _⟩ := prepare_ok hp
  obtain ⟨h3, he, _, hl⟩ := prelude_ok hpre
  obtain ⟨ho, hv⟩ := loopFields_spec hm hf (not_null hord ha he) hspec hl
  obtain ⟨fs1, st1, fs2, st2, hs, hfin, hini, _⟩ := oris_final (found_nodup hd hl) ho hr
  rw [hfin, ← hini]
  simp only [oriStep, hv, Option.getD_some, oriValue] at hs
  split at hs <;> cases hs <;> rfl

/-- **C64 is violated** by a specification with a nil `*Struct`: dethcl/unmarshal.go L231-427 takes none of its branches, and every block for the field, whatever is in it, is lost without an
error. -/
theorem C64_violated_nil (one more : Body) :
    Demo.outcome (Demo.run Demo.ext [(b "One", .none)] (.mk [Demo.str "name" "n"] [(b "one", [b "a"], one), (b "one", [b "c"], more)])) =
      (GoMap.set Demo.blank (b "Name") (.str (b "n")), none) := rfl

-- The hypotheses of `C64_nil` hold for it.
example : (∀ p l, (Demo.ext.ord p l).Perm l) ∧ DistinctNames Demo.env 1 0 ∧ Demo.fOne ∈ (Demo.env.struct 0).fields ∧ Decodes Demo.fOne ∧
    Demo.fOne.tag ∉ GoMap.keys [Demo.str "name" "n"] :=
  ⟨fun _ l => List.Perm.refl l, by unfold DistinctNames; decide +kernel, by simp [Demo.env],
    ⟨by decide +kernel, by decide +kernel, by decide +kernel, by decide +kernel⟩, by decide +kernel⟩

-- Without an entry for the field its block is decoded.
example : Demo.outcome (Demo.run Demo.ext [] (.mk [Demo.str "name" "n"] [(b "one", [b "a"], Demo.leaf "1")])) =
    (GoMap.set (GoMap.set Demo.blank (b "Name") (.str (b "n"))) (b "One") (.ref 1 [(b "Id", .str (b "a")), (b "Val", .str (b "1"))]), none) := rfl

end Verif.HclS
