import Verif.Props.DetGlobal
/-!
# C171: fields that a specification names without a struct

`NewValue` of a nil `*Struct` (utils/common.go L88-89) is a value whose getters all return nil (utils/determined.pb.go L126-159), as is a nil `*Value` or one without content: `CVal.none`.
-/
namespace Verif.Det

/-- **C171, partial**: after a call that succeeds, every field but those without a struct holds what follows from the document: whatever the target held before, it is the same. -/
theorem C171_partial {env : Env} {ext : Ext} {fuel ref path t₁ t₂ spec dat t₁' t₂'} (hc : t₁.cls = t₂.cls) (hs : spec.fields ≠ [])
    (h₁ : decode env ext fuel ref path t₁ spec dat = .ret t₁' false) (h₂ : decode env ext fuel ref path t₂ spec dat = .ret t₂' false)
    {f : Fld} (hf : f ∈ loopFields (env.struct t₁.cls).fields) (hn : GoMap.get? spec.fields f.name ≠ some .none) :
    ∃ v, GoMap.get? t₁'.fields f.name = some v ∧ GoMap.get? t₂'.fields f.name = some v := by
  obtain ⟨reg₁, m₁, hr₁, hm₁, _, _, g₁⟩ := decode_ok hs h₁
  obtain ⟨reg₂, m₂, hr₂, hm₂, _, _, g₂⟩ := decode_ok hs h₂
  rw [← hc] at hr₂ g₂
  rw [hr₁] at hr₂; cases hr₂
  rw [hm₁] at hm₂; cases hm₂
  obtain ⟨i, hi⟩ := List.mem_iff_getElem?.1 hf
  obtain ⟨raw, o, hraw, ho, e₁⟩ := g₁ i f hi
  obtain ⟨raw', o', hraw', ho', e₂⟩ := g₂ i f hi
  rw [hraw] at hraw'; cases hraw'
  rw [ho] at ho'; cases ho'
  have some_of : ∃ v, o = some v := by
    have out : ∀ {x : Out Val}, (x.bind fun v => Out.ok (some v)) = .ok o → ∃ v, o = some v := fun {x} h => by
      cases x with
      | ok v => exact ⟨v, by cases h; rfl⟩
      | err => cases h
      | panic => cases h
      | hang => cases h
    unfold fieldValue at ho
    dsimp only at ho
    split at ho
    · cases ho; exact ⟨_, rfl⟩
    · exact out ho
    · exact out ho
    · exact out ho
    · exact out ho
    · rename_i hx; exact absurd hx hn
    · cases ho
  obtain ⟨v, rfl⟩ := some_of
  exact ⟨v, by rw [e₁]; rfl, by rw [e₂]; rfl⟩

/-- A field without a struct keeps what it held, whatever the document has for it. -/
theorem C171_kept {env : Env} {ext : Ext} {fuel ref path tgt spec dat t'} (h : decode env ext fuel ref path tgt spec dat = .ret t' false)
    {f : Fld} (hf : f ∈ loopFields (env.struct tgt.cls).fields) (hn : GoMap.get? spec.fields f.name = some .none) :
    GoMap.get? t'.fields f.name = GoMap.get? tgt.fields f.name := by
  have hs : spec.fields ≠ [] := by intro e; rw [e] at hn; simp [GoMap.get?] at hn
  obtain ⟨reg, m, _, _, _, _, g⟩ := decode_ok hs h
  obtain ⟨i, hi⟩ := List.mem_iff_getElem?.1 hf
  obtain ⟨raw, o, _, ho, e⟩ := g i f hi
  unfold fieldValue at ho
  dsimp only at ho
  rw [hn] at ho
  cases ho
  rw [e]; rfl

/-- The specification for `Pair` with a nil `*Struct` for `B`. -/
def nilSpec : Cls := .mk (b "Pair") [(b "B", .none)]

/-- **C171 is violated**: with a nil `*Struct` for `B`, the member `b` of the document is lost without an error, and `B` holds what it held before.  It need not even be of the right type. -/
theorem C171_violated (k : Nat) (j : J) :
    decode pairEnv pairExt 9 [] [] ⟨0, [(b "A", .leaf 7), (b "B", .leaf k)]⟩ nilSpec (some (.obj [(b "a", .atom (b "xx")), (b "b", j)])) =
      .ret ⟨0, [(b "A", .leaf 2), (b "B", .leaf k)]⟩ false := by
  rw [decode_eqN 3 (by simp [Cls.depth, CVal.depth, depthF, nilSpec])]
  rfl

-- With a struct for `B` the same field is decoded; `A`, which has no specification, is read from the document, too.
example : decode pairEnv pairExt 9 [] [] ⟨0, [(b "A", .leaf 7), (b "B", .leaf 5)]⟩ pairSpec (some (.obj [(b "a", .atom (b "xx")), (b "b", .null)])) =
      .ret ⟨0, [(b "A", .leaf 2), (b "B", .ref 1 [])]⟩ false ∧ pairSpec.fields ≠ [] ∧ (∀ n, GoMap.get? pairSpec.fields n ≠ some .none) ∧
    GoMap.get? nilSpec.fields (b "B") = some .none := by
  refine ⟨?_, by simp [pairSpec, Cls.fields], fun n => ?_, rfl⟩
  · rw [decode_eqN 3 (by simp [Cls.depth, CVal.depth, depthF, pairSpec, leafSpec])]
    rfl
  · simp only [pairSpec, Cls.fields, GoMap.get?]
    split <;> simp

end Verif.Det
