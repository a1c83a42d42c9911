import Verif.Spec.OwnStruct
import Verif.Lemmas.HclStructIfacePrint
import Verif.Props.Own
/-!
# Types with their own MarshalHCL and UnmarshalHCL inside of structs
-/
namespace Verif.HclS
open Hcl (IsIdent SafeStr indent)
open Det (Cls CVal)

/-- If the calls for structs without `UnmarshalHCL` decode, so do the calls for blocks. -/
theorem plusRec_displays {ms env emb ext root ref n rec}
    (h : RecDisplays env ext root ref (AndLabels env emb (DisplaysBy env emb ext ref (DisplaysOwn ms env emb ext ref n))) rec) :
    RecDisplays env ext root ref (DisplaysOwn ms env emb ext ref (n + 1)) (plusRec ms rec) := by
  intro path st node c fs obj labels body hi hroot hnode hcan hle hs
  simp only [DisplaysOwn] at hs
  unfold plusRec
  cases hu : ms.unmarshal c with
  | some u =>
    rw [hu] at hs
    dsimp only at hs ⊢
    rw [hs]
    exact ⟨st, rfl, hi, Tree.Le.refl _, RefStep.refl _ _ _⟩
  | none =>
    rw [hu] at hs
    dsimp only at hs ⊢
    exact h path st node c fs obj labels body hi hroot hnode hcan hle hs

theorem decodeOwn_displays {ms env emb ext root ref} (hord : ∀ p l, (ext.ord p l).Perm l) (hz : ext.zero .str = .str []) :
    ∀ n m, n + emb ≤ m →
      RecDisplays env ext root ref (AndLabels env emb (DisplaysBy env emb ext ref (DisplaysOwn ms env emb ext ref n))) (decodeOwn ms env ext root (m + 1))
  | 0, m, h => decodeStruct_displays hord hz (fun _ _ _ _ _ _ _ _ _ _ _ _ _ h => h.elim) (by omega)
  | n + 1, 0, h => by omega
  | n + 1, m + 1, h => decodeStruct_displays hord hz (plusRec_displays (decodeOwn_displays hord hz n m (by omega))) (by omega)

theorem ownText_tight (bs : Bytes) (level : Nat) : Tight (ownText bs (level + 1)) := by
  simp only [ownText, Nat.succ_pos, gt_iff_lt, if_true]
  exact ⟨_, 125, rfl, rfl⟩

theorem outLine_tight {o : POut} (h : Tight o.text) : Tight (outLine o) := Tight.append h _

/-- The recursive calls for blocks write structs, with or without methods. -/
theorem plusPRec_lines {ms env emb pe ext ref n N rec}
    (h : ∀ obj, RecGood S env emb (FitsBy (AnyGood S pe ext) env emb pe ext ref (writtenOwn ms env emb) (FitsOwn S ms env emb pe ext ref n) obj)
      (DisplaysBy env emb ext ref (DisplaysOwn ms env emb ext ref n) obj) N rec) :
    RecLines S (writtenOwn ms env emb) (FitsOwn S ms env emb pe ext ref (n + 1)) (DisplaysOwn ms env emb ext ref (n + 1)) N (plusPRec ms rec) := by
  intro path level keys addr obj c fs f hg hd ht hs
  simp only [FitsOwn] at hg
  unfold plusPRec
  cases hm : ms.marshal addr c with
  | some m =>
    rw [hm] at hg
    dsimp only at hg ⊢
    have hw : writtenOwn ms env emb addr c fs keys.head? = [] := by simp [writtenOwn, hm]
    rw [hw, List.append_nil] at hs ⊢
    rw [hw, List.append_nil] at hg
    obtain ⟨text, doc, h1, h2, h3⟩ := hg
    refine ⟨ownText text (level + 1), doc, by rw [h1]; rfl, ?_, ⟨own_item h2 (by omega) ht hs, outLine_tight (ownText_tight _ _)⟩, h3⟩
    rw [outOf, (ownText_tight _ _).notBlank]; rfl
  | none =>
    rw [hm] at hg
    dsimp only at hg ⊢
    have hw : writtenOwn ms env emb addr c fs keys.head? = writtenLabels (env.flat emb c) fs keys.head? := by simp [writtenOwn, hm]
    rw [hw] at hs ⊢
    rw [hw] at hg
    obtain ⟨h1, h2⟩ := hg
    obtain ⟨t, h6, h7⟩ := h obj path (level + 1) keys addr c fs h1 hd
    obtain ⟨h8, doc, h9, h10⟩ := rendered_line ht hs h7
    refine ⟨t, doc, h6, h8, h9, fun body hb => ?_⟩
    simp only [DisplaysOwn]
    cases hu : ms.unmarshal c with
    | some u =>
      rw [hu] at h2
      exact h2 body (h10 body hb)
    | none =>
      rw [hu] at h2
      exact ⟨h10 body hb, h2⟩

/-- What is written for a struct without `MarshalHCL`. -/
theorem fitsOwn_rendered {ms : Methods} {env : Env} {emb : Nat} {pe : PExt} {ext : Ext} {ref : GoMap Bytes Tmpl} (hz : ZeroOkI ext)
    (hpo : ∀ p l, (pe.ord p l).Perm l) (hpo2 : ∀ p l, (pe.ord2 p l).Perm l) :
    ∀ n N obj, RecGood S env emb (FitsBy (AnyGood S pe ext) env emb pe ext ref (writtenOwn ms env emb) (FitsOwn S ms env emb pe ext ref n) obj)
      (DisplaysBy env emb ext ref (DisplaysOwn ms env emb ext ref n) obj) (N + 1) (marshalStruct env pe (marshalOwnN ms env pe N))
  | 0, N, obj => fitsBy_rendered hz hpo hpo2 (fun _ _ _ _ _ _ _ _ h => h.elim) obj
  | n + 1, 0, obj => fitsBy_rendered hz hpo hpo2 (fun _ _ _ _ _ _ _ _ _ h => absurd h (by omega)) obj
  | n + 1, N + 1, obj => fitsBy_rendered hz hpo hpo2 (plusPRec_lines (fitsOwn_rendered hz hpo hpo2 n N)) obj

end Verif.HclS
