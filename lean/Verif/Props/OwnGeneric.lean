import Verif.Props.OwnStruct
import Verif.Props.HclStructGeneric
/-!
# C114 for structs with generic fields and with types that have their own methods
-/
set_option linter.unusedSimpArgs false
set_option linter.ambiguousOpen false

namespace Verif.HclS
open Verif.Tree (Heap)
open Hcl (Cty Expr GV)
open Det (Cls CVal)

/-- Like `FitsOwn`, with `AnyBack` for generic fields. -/
def FitsOwnData (nfc : Bytes → Bytes) (ms : Methods) (env : Env) (emb : Nat) (pe : PExt) (ext : Ext) (ref : GoMap Bytes Tmpl) :
    Nat → Bool → List (Bytes × CVal) → List Bytes → Nat → Fields → Prop
  | 0, _, _, _, _, _ => False
  | n + 1, ptr, obj, labels, c, fs =>
    match ms.marshal ptr c with
    | some m => ∃ text doc, m fs = .ok text ∧ Hcl.parseConfig text = .ok doc ∧
        ∀ body, Reads SourceOf doc body → DisplaysOwn ms env emb ext ref (n + 1) obj labels body c fs
    | none => FitsBy (fun f v => AnyBack nfc f.ty v) env emb pe ext ref (writtenOwn ms env emb) (FitsOwnData nfc ms env emb pe ext ref n) obj c fs ∧
        match ms.unmarshal c with
        | some u => ∀ body, DisplaysBy env emb ext ref (DisplaysOwn ms env emb ext ref n) obj body c fs → u (newFields env ext c) labels body = .ok fs
        | none => LabelsAre (env.flat emb c) fs labels

theorem fitsOwn_data {ms : Methods} {env : Env} {emb : Nat} {pe : PExt} {ext : Ext} {hx : Hcl.Ext} {ref : GoMap Bytes Tmpl}
    (ho : ∀ p ks, (hx.ord p ks).Perm ks) (hd : GenericDec ext hx) (he : GenericEnc pe) : ∀ n ptr obj labels c fs,
    FitsOwnData hx.nfc ms env emb pe ext ref n ptr obj labels c fs → FitsOwn SourceOf ms env emb pe ext ref n ptr obj labels c fs
  | 0, _, _, _, _, _, h => h
  | n + 1, ptr, obj, labels, c, fs, h => by
    simp only [FitsOwnData, FitsOwn] at h ⊢
    cases hm : ms.marshal ptr c with
    | some m => rw [hm] at h; exact h
    | none =>
      rw [hm] at h
      exact ⟨FitsBy.mono h.1 (fun _ _ hf ha => any_back ho hd he hf ha) fun ptr obj ls c fs h => fitsOwn_data ho hd he n ptr obj ls c fs h, h.2⟩

/-- **C114, with methods.** A struct with generic fields comes back from its text also if it, or structs in its fields, have `MarshalHCL` and
`UnmarshalHCL`: the data in the generic fields is only required to be the text of HCL values that decoding does not change, the methods to fit together as
in C112. -/
theorem C114_own_partial {ms : Methods} {env : Env} {pe : PExt} {ext : Ext} {hx : Hcl.Ext} {emb n m c : Nat} {ptr : Bool} {v : Val} {fs : Fields}
    {labels : List Bytes} (hord : ∀ p l, (ext.ord p l).Perm l) (hpo : ∀ p l, (pe.ord p l).Perm l) (hpo2 : ∀ p l, (pe.ord2 p l).Perm l)
    (hxo : ∀ p l, (hx.ord p l).Perm l) (hd : GenericDec ext hx) (he : GenericEnc pe) (hz : ZeroOkI ext) (hcan : Canonical env ext [])
    (hv : ptr = true ∧ v = .ref c fs ∨ ptr = false ∧ v = .inst c fs ∧ ¬ v.Zero)
    (hw : FitsOwnData hx.nfc ms env emb pe ext [] (n + 1) ptr [] labels c fs) (hn : n + emb ≤ m) :
    ∃ text doc, marshalOwn ms env pe v = .ok text ∧ Hcl.parseConfig text = .ok doc ∧ ∀ body, Reads SourceOf doc body →
      unmarshalOwn ms env ext m (some body) c (newFields env ext c) labels = ⟨fs, .ok ()⟩ :=
  C112_unmarshal_partial hord hpo hpo2 hz hcan hv (fitsOwn_data hxo hd he _ _ _ _ _ _ hw) hn

namespace GenDemo

/-- The usual `UnmarshalHCL`: it calls `UnmarshalSpec` for the struct, without specification. -/
def delegate (tgt : Fields) (labels : List Bytes) (body : Body) : Except Fail Fields :=
  let after := unmarshalSpec env ext 0 (some body) 0 tgt (some []) ⟨[], []⟩ none labels
  after.outcome.map fun _ => after.target

/-- The type has `UnmarshalHCL`, but no `MarshalHCL`. -/
def msDelegate : Methods := ⟨fun _ _ => none, fun c => if c = 0 then some delegate else none⟩

theorem full_fits_own : FitsOwnData hx.nfc msDelegate env 0 pe ext [] 1 true [] [] 0 full := by
  refine ⟨FitsBy.mono (full_fits []) (fun _ _ _ h => h) (fun _ _ _ _ _ h => h.1.elim), fun body h => ?_⟩
  have h1 : Displays env 0 ext [] 1 [] body 0 full := by
    obtain ⟨g1, g2, g3, g4, g5, g6⟩ := h
    refine ⟨g1, g2, g3, g4, g5, fun f hf => ?_⟩
    obtain ⟨v, k1, k2, k3, k4, k5⟩ := g6 f hf
    refine ⟨v, k1, k2, k3, fun hs => ?_, k5⟩
    rcases fields_env hf with rfl | rfl | rfl
    · exact absurd (⟨hs.decodes, hs.ty.resolve_left (by simp [GoMap.get?])⟩ : BlockFld fName) (not_plain_block name_fld.1)
    · exact absurd tags_fld (not_block_any ⟨hs.decodes, hs.ty.resolve_left (by simp [GoMap.get?])⟩)
    · exact absurd conf_fld (not_block_any ⟨hs.decodes, hs.ty.resolve_left (by simp [GoMap.get?])⟩)
  obtain ⟨h2, h3⟩ := C106_decodes_interfaces (m := 0) (st := ⟨[], []⟩) (root := none) (labels := []) (fun _ _ => .refl _) rfl
    ⟨by simp, by simp, by simp⟩ (by simp) canonical h1 ⟨fun _ => rfl, fun h => absurd rfl h⟩ (by omega)
  simp only [delegate, h2, h3, Except.map]

end GenDemo

-- `C114_own_partial` for a struct whose `UnmarshalHCL` calls `UnmarshalSpec`.
example : ∃ text doc, marshalOwn GenDemo.msDelegate GenDemo.env GenDemo.pe (.ref 0 GenDemo.full) = .ok text ∧ Hcl.parseConfig text = .ok doc ∧
    ∀ body, Reads SourceOf doc body → unmarshalOwn GenDemo.msDelegate GenDemo.env GenDemo.ext 0 (some body) 0 (newFields GenDemo.env GenDemo.ext 0) [] =
      ⟨GenDemo.full, .ok ()⟩ :=
  C114_own_partial (fun _ _ => .refl _) (fun _ _ => .refl _) (fun _ _ => .refl _) (fun _ _ => .refl _) GenDemo.genericDec GenDemo.genericEnc
    GenDemo.zeroOkI GenDemo.canonical (.inl ⟨rfl, rfl⟩) GenDemo.full_fits_own (Nat.le_refl 0)

end Verif.HclS
