import Verif.Spec.HclStructGeneric
import Verif.Lemmas.HclStructIfacePrint
import Verif.Lemmas.HclStructSim
import Verif.Lemmas.HclBack
/-! # Lemmas about generic data in fields of structs -/
set_option linter.unusedSimpArgs false
set_option linter.ambiguousOpen false

namespace Verif.HclS
open Verif.Tree (Heap)
open Hcl
open Det (insertK ltB)

/-! ## Other orders -/

def mapLike : GV → Bool
  | .map _ | .nilMap => true
  | _ => false

theorem byLabels_eq (d : Nat) (m : List (Bytes × GV)) :
    byLabels d m = (!m.isEmpty && m.all (fun e => mapLike e.2) && decide (d < 2)) := rfl

/-- What does not depend on the order of the members of maps. -/
structure ReV (nfc : Bytes → Bytes) (v w : GV) : Prop where
  ml : mapLike w = mapLike v
  lab : ∀ d, w.labelled d = v.labelled d
  elem : okElem v → okElem w
  member : okMember v → okMember w
  leaf : okLeaf v → okLeaf w
  line : ∀ d, okLine d v → okLine d w
  ex : Hcl.exact nfc v → Hcl.exact nfc w
  nz : NonZero v → NonZero w
  un : ∀ d, uniform d v → uniform d w
  canon : Hcl.exact nfc v → w.canon = v.canon

structure ReL (nfc : Bytes → Bytes) (l l' : List GV) : Prop where
  elems : okElems l → okElems l'
  ex : exactL nfc l → exactL nfc l'
  canon : exactL nfc l → canonL l' = canonL l

structure ReM (nfc : Bytes → Bytes) (m m' : List (Bytes × GV)) : Prop where
  keys : (m.map Prod.fst).Perm (m'.map Prod.fst)
  all : (m'.all fun e => mapLike e.2) = (m.all fun e => mapLike e.2)
  obj : okObj m → okObj m'
  flat : okFlat m → okFlat m'
  body : okBody m → okBody m'
  labels : ∀ d, okLabels d m → okLabels d m'
  ex : exactM nfc m → exactM nfc m'
  unM : uniformM m → uniformM m'
  unL : ∀ d, uniformL d m → uniformL d m'
  lab : ∀ d x, (∀ e ∈ m, e.2.labelled d = x) → ∀ e ∈ m', e.2.labelled d = x
  canon : exactM nfc m → (m.map Prod.fst).Nodup → canonM m' = canonM m

theorem ReM.by {nfc} {m m' : List (Bytes × GV)} (h : ReM nfc m m') (d : Nat) : byLabels d m' = byLabels d m := by
  have : m'.isEmpty = m.isEmpty := by
    have := h.keys.length_eq
    simp only [List.length_map] at this
    cases m <;> cases m' <;> simp_all
  rw [byLabels_eq, byLabels_eq, h.all, this]

mutual
theorem reord_v (nfc : Bytes → Bytes) {v w : GV} : Reord v w → ReV nfc v w
  | .same => ⟨rfl, fun _ => rfl, id, id, id, fun _ => id, id, id, fun _ => id, fun _ => rfl⟩
  | .list h => by
    have h := reord_l nfc h
    refine ⟨rfl, fun _ => rfl, ?_, ?_, ?_, fun _ => ?_, ?_, id, fun _ => ?_, ?_⟩ <;> intro hh
    · simp only [okElem] at *; exact h.elems hh
    · simp only [okMember] at *; exact h.elems hh
    · simp only [okLeaf] at *; exact h.elems hh
    · simp only [okLine] at *; exact h.elems hh
    · simp only [Hcl.exact] at *; exact h.ex hh
    · simp only [uniform]
    · simp only [Hcl.exact, GV.canon] at *; rw [h.canon hh]
  | .map h => by
    have h := reord_m nfc h
    refine ⟨rfl, fun d => ?_, ?_, ?_, ?_, fun d => ?_, ?_, id, fun d => ?_, ?_⟩
    · exact h.by d
    all_goals intro hh
    · simp only [okElem] at *; exact h.obj hh
    · simp only [okMember] at *; exact h.flat hh
    · simp only [okLeaf] at *
    · simp only [okLine, h.by] at *; exact ⟨fun e => h.labels _ (hh.1 e), fun e => h.body (hh.2 e)⟩
    · simp only [Hcl.exact] at *; exact ⟨h.ex hh.1, h.keys.nodup_iff.1 hh.2⟩
    · simp only [uniform, h.by] at *
      refine ⟨fun e => ⟨h.unL _ (hh.1 e).1, ?_⟩, fun e => h.unM (hh.2 e)⟩
      rcases (hh.1 e).2 with g | g
      · exact .inl (h.lab _ _ g)
      · exact .inr (h.lab _ _ g)
    · simp only [Hcl.exact, GV.canon] at *; rw [h.canon hh.1 hh.2]
theorem reord_l (nfc : Bytes → Bytes) {l l' : List GV} : ReordL l l' → ReL nfc l l'
  | .nil => ⟨id, id, fun _ => rfl⟩
  | .cons h h' => by
    have h := reord_v nfc h
    have h' := reord_l nfc h'
    refine ⟨fun hh => ?_, fun hh => ?_, fun hh => ?_⟩
    · simp only [okElems] at *; exact ⟨h.elem hh.1, h'.elems hh.2⟩
    · simp only [exactL] at *; exact ⟨h.nz hh.1, h.ex hh.2.1, h'.ex hh.2.2⟩
    · simp only [exactL, canonL] at *; rw [h.canon hh.2.1, h'.canon hh.2.2]
theorem reord_m (nfc : Bytes → Bytes) {m m' : List (Bytes × GV)} : ReordM m m' → ReM nfc m m'
  | .nil => ⟨.refl _, rfl, id, id, id, fun _ => id, id, id, fun _ => id, fun _ _ => id, fun _ _ => rfl⟩
  | .cons (k := k) h h' => by
    have h := reord_v nfc h
    have h' := reord_m nfc h'
    refine ⟨?_, ?_, fun hh => ?_, fun hh => ?_, fun hh => ?_, fun d hh => ?_, fun hh => ?_, fun hh => ?_, fun d hh => ?_, fun d x hh => ?_, fun hh hn => ?_⟩
    · exact h'.keys.cons _
    · simp only [List.all_cons, h.ml, h'.all]
    · simp only [okObj] at *; exact ⟨hh.1, h.member hh.2.1, h'.obj hh.2.2⟩
    · simp only [okFlat] at *; exact ⟨hh.1, h.leaf hh.2.1, h'.flat hh.2.2⟩
    · simp only [okBody] at *
      exact ⟨⟨hh.1.1, hh.1.2.1, fun hc => hh.1.2.2 (h'.keys.mem_iff.2 hc)⟩, h.line 0 hh.2.1, h'.body hh.2.2⟩
    · simp only [okLabels] at *; exact ⟨hh.1, h.line _ hh.2.1, h'.labels d hh.2.2⟩
    · simp only [exactM] at *; exact ⟨h.ex hh.1, h'.ex hh.2⟩
    · simp only [uniformM] at *; exact ⟨h.un _ hh.1, h'.unM hh.2⟩
    · simp only [uniformL] at *; exact ⟨h.un _ hh.1, h'.unL _ hh.2⟩
    · simp only [List.mem_cons, forall_eq_or_imp] at *
      exact ⟨(h.lab d).trans hh.1, h'.lab d x hh.2⟩
    · simp only [exactM, canonM, List.map_cons, List.nodup_cons] at *; rw [h.canon hh.1, h'.canon hh.2 hn.2]
  | .swap (x := x) (y := y) (m := m) => by
    obtain ⟨k, v⟩ := x
    obtain ⟨k', v'⟩ := y
    refine ⟨.swap _ _ _, ?_, fun hh => ?_, fun hh => ?_, fun hh => ?_, fun d hh => ?_, fun hh => ?_, fun hh => ?_, fun d hh => ?_, fun d x hh => ?_, fun hh hn => ?_⟩
    · simp only [List.all_cons]; cases mapLike v <;> cases mapLike v' <;> simp
    · simp only [okObj] at *; exact ⟨hh.2.2.1, hh.2.2.2.1, hh.1, hh.2.1, hh.2.2.2.2⟩
    · simp only [okFlat] at *; exact ⟨hh.2.2.1, hh.2.2.2.1, hh.1, hh.2.1, hh.2.2.2.2⟩
    · simp only [okBody, List.map_cons, List.mem_cons, not_or] at *
      obtain ⟨⟨a1, a2, a3, a4⟩, a5, ⟨a6, a7, a8⟩, a9, a10⟩ := hh
      exact ⟨⟨a6, a7, Ne.symm a3, a8⟩, a9, ⟨a1, a2, a4⟩, a5, a10⟩
    · simp only [okLabels] at *; exact ⟨hh.2.2.1, hh.2.2.2.1, hh.1, hh.2.1, hh.2.2.2.2⟩
    · simp only [exactM] at *; exact ⟨hh.2.1, hh.1, hh.2.2⟩
    · simp only [uniformM] at *; exact ⟨hh.2.1, hh.1, hh.2.2⟩
    · simp only [uniformL] at *; exact ⟨hh.2.1, hh.1, hh.2.2⟩
    · simp only [List.mem_cons, forall_eq_or_imp] at *
      exact ⟨hh.2.1, hh.1, hh.2.2⟩
    · simp only [List.map_cons, List.nodup_cons, List.mem_cons, not_or, canonM] at *
      exact Det.insertK_comm Det.ltB_lin (Ne.symm hn.1.1) _ _ _
  | .trans h h' => by
    have h := reord_m nfc h
    have h' := reord_m nfc h'
    exact ⟨h.keys.trans h'.keys, h'.all.trans h.all, h'.obj ∘ h.obj, h'.flat ∘ h.flat, h'.body ∘ h.body, fun d => h'.labels d ∘ h.labels d,
      h'.ex ∘ h.ex, h'.unM ∘ h.unM, fun d => h'.unL d ∘ h.unL d, fun d x => h'.lab d x ∘ h.lab d x,
      fun hh hn => (h'.canon (h.ex hh) (h.keys.nodup_iff.1 hn)).trans (h.canon hh hn)⟩
end

/-! ## Literals -/

theorem lit_int (n : Int) : Lit (intExpr n) := by
  unfold intExpr; split
  · exact .neg
  · exact .num

theorem lit_flt (q : Rat) : Lit (fltExpr q) := by
  unfold fltExpr; dsimp only; split
  · exact .neg
  · exact .num

theorem lit_scalar (v : GV) : Lit (scalarExpr v) := by
  unfold scalarExpr
  cases v with
  | str s => exact .str
  | bool v => cases v <;> constructor
  | int n => exact lit_int n
  | flt q =>
    dsimp only
    split
    · exact lit_int _
    · exact lit_flt _
    · exact .nullCall
  | _ => exact .nullCall

mutual
theorem lit_expr (elem : Bool) : ∀ v : GV, Lit (exprOf elem v)
  | .list l => by simp only [exprOf]; exact .tuple (lit_exprs l)
  | .map m => by simp only [exprOf]; exact .object (fun e he => (lit_members m e he).1) (fun e he => (lit_members m e he).2)
  | .nilList => by simp only [exprOf]; exact .tuple (by simp)
  | .nilMap => by simp only [exprOf]; exact .tuple (by simp)
  | .nil => by
    simp only [exprOf]; split
    · exact .tuple (by simp)
    · exact .nullCall
  | .str s => by
    simp only [exprOf]; split
    · exact .tuple (by simp)
    · exact .str
  | .bool v => by
    simp only [exprOf]; split
    · exact .tuple (by simp)
    · exact lit_scalar _
  | .int v => by
    simp only [exprOf]; split
    · exact .tuple (by simp)
    · exact lit_scalar _
  | .flt v => by
    simp only [exprOf]; split
    · exact .tuple (by simp)
    · exact lit_scalar _
theorem lit_exprs : ∀ l : List GV, ∀ e ∈ exprsOf l, Lit e
  | [] => by simp [exprsOf]
  | v :: l => by
    simp only [exprsOf, List.mem_cons, forall_eq_or_imp]
    exact ⟨lit_expr true v, lit_exprs l⟩
theorem lit_members : ∀ m : List (Bytes × GV), ∀ e ∈ membersOf m, LitKey e.1 ∧ Lit e.2
  | [] => by simp [membersOf]
  | (k, v) :: m => by
    simp only [membersOf, List.mem_cons, forall_eq_or_imp]
    exact ⟨⟨.ident, lit_expr false v⟩, lit_members m⟩
end

theorem lit_attrs (m : List (Bytes × GV)) : ∀ a ∈ Hcl.attrsOf m, Lit a.2 := by
  induction m with
  | nil => simp [Hcl.attrsOf]
  | cons e m ih =>
    obtain ⟨k, v⟩ := e
    simp only [Hcl.attrsOf]
    split
    · exact ih
    · simp only [List.mem_cons, forall_eq_or_imp]
      exact ⟨lit_expr false v, ih⟩

theorem LitBlocks.append {x y} (h : LitBlocks x) (h' : LitBlocks y) : LitBlocks (x ++ y) := by
  induction x with
  | nil => exact h'
  | cons e x ih =>
    cases h with
    | cons h1 h2 => exact .cons h1 (ih h2)

mutual
theorem lit_blocks : ∀ m : List (Bytes × GV), LitBlocks (Hcl.blocksOf m)
  | [] => by simp only [Hcl.blocksOf]; exact .nil
  | (k, v) :: m => by simp only [Hcl.blocksOf]; exact (lit_blocksV k [] v).append (lit_blocks m)
theorem lit_blocksV (k : Bytes) (ls : List Bytes) : ∀ v : GV, LitBlocks (blocksV k ls v)
  | .map m => by
    simp only [blocksV]; split
    · exact lit_blocksH k ls m
    · exact .cons (.mk (lit_attrs m) (lit_blocks m)) .nil
  | .nil | .str _ | .bool _ | .int _ | .flt _ | .list _ | .nilList | .nilMap => by simp only [blocksV]; exact .nil
theorem lit_blocksH (k : Bytes) (ls : List Bytes) : ∀ m : List (Bytes × GV), LitBlocks (blocksH k ls m)
  | [] => by simp only [blocksH]; exact .nil
  | (l, v) :: m => by simp only [blocksH]; exact (lit_blocksV k (ls ++ [l]) v).append (lit_blocksH k ls m)
end

theorem lit_body (m : List (Bytes × GV)) : LitBody (bodyOf m) := .mk (lit_attrs m) (lit_blocks m)

theorem eval_lit {ext : Ext} {e : Expr} (h : Lit e) : ∃ cv, ∀ vars, evalE ext vars e = .ok cv := by
  obtain ⟨v, hv⟩ := evalE_lit (ext := ext) h
  exact ⟨v, hv ext.ord⟩

theorem eval_tuple {ext : Ext} {l : List Expr} (h : ∀ e ∈ l, Lit e) : ∃ cv, evalE ext [] (.tuple l) = .ok cv ∧ cv ≠ .null := by
  obtain ⟨vs, hv⟩ := evalL_lit (ext := ext) (fun e he => evalE_lit (h e he))
  refine ⟨.tuple vs, ?_, by simp⟩
  have : evalL ext [] l = .ok vs := hv ext.ord []
  simp [evalE, this, Except.map]

/-! ## Data that is written and read back -/

theorem reord_list {l : List GV} {w : GV} (h : Reord (.list l) w) : ∃ l', w = .list l' ∧ ReordL l l' := by
  have hr : ∀ l : List GV, ReordL l l := fun l => by
    induction l with
    | nil => exact .nil
    | cons v l ih => exact .cons .same ih
  cases h with
  | same => exact ⟨l, rfl, hr l⟩
  | list h => exact ⟨_, rfl, h⟩

theorem reord_map {m : List (Bytes × GV)} {w : GV} (h : Reord (.map m) w) : ∃ m', w = .map m' ∧ ReordM m m' := by
  have hr : ∀ m : List (Bytes × GV), ReordM m m := fun m => by
    induction m with
    | nil => exact .nil
    | cons v l ih => exact .cons .same ih
  cases h with
  | same => exact ⟨m, rfl, hr m⟩
  | map h => exact ⟨_, rfl, h⟩

theorem code_notStruct (v : GV) : (code v).isStruct = false := by
  cases v <;> simp [code, Val.isStruct]

theorem codeM_notStruct (m : List (Bytes × GV)) : ∀ y ∈ codeM m, y.2.isStruct = false := by
  induction m with
  | nil => simp [codeM]
  | cons e m ih =>
    obtain ⟨k, v⟩ := e
    simp only [codeM, List.mem_cons, forall_eq_or_imp]
    exact ⟨code_notStruct v, ih⟩

theorem parseX_list {level : Nat} {arr : List Bytes} {es : List Expr} (h : List.Forall₂ ExprOk arr es) :
    parseX (listText level arr) = .ok (.tuple es) := by
  unfold parseX
  rw [parseConfig_list h]
  rfl

theorem any_back {pe : PExt} {ext : Ext} {hx : Hcl.Ext} {obj f v} (ho : ∀ p ks, (hx.ord p ks).Perm ks) (hd : GenericDec ext hx) (he : GenericEnc pe)
    (hf : AnyFld obj f) (hb : AnyBack hx.nfc f.ty v) : AnyGood SourceOf pe ext f v := by
  rcases hb with hb | hb
  · exact .inl hb
  right
  rcases hf.ty with ht | ht
  · rw [ht] at hb ⊢
    obtain ⟨l, rfl, hne, hok, hex, hc⟩ := hb
    cases l with
    | nil => exact absurd rfl hne
    | cons x l =>
      refine ⟨code x, codeL l, by simp [code, codeL], code_notStruct x, fun k => ?_⟩
      obtain ⟨w, hw, henc⟩ := he (.list (x :: l)) (k + 1)
      obtain ⟨l', rfl, hl⟩ := reord_list hw
      have hr := reord_l hx.nfc hl
      obtain ⟨arr, ha⟩ := encList_total hx.nfc l' (hr.ex hex) (k + 1)
      have hall := encList_ok (k + 1) l' arr (hr.elems hok) ha
      obtain ⟨cv, hcv, hnn⟩ := eval_tuple (ext := ext) (lit_exprs l')
      refine ⟨listText (k + 1) arr, .tuple (exprsOf l'), cv, henc _ (by simp only [encV, ha]; rfl),
        ⟨ExprOk.tuple _ hall, ⟨_, 93, rfl, by decide⟩⟩, .tuple (lit_exprs l'), hcv, hnn, fun src hs => ?_⟩
      have hp := hs ⟨_, parseX_list (level := k + 1) hall⟩
      have := hd.slice src _ (x :: l) hp (.tuple (lit_exprs l')) (by
        unfold decodeSlice
        rw [hp]
        exact (native_exprs hx l' (hr.ex hex)).trans (by rw [hr.canon hex, hc]))
      simpa [codeList, code] using this
  · rw [ht] at hb ⊢
    obtain ⟨m, rfl, hne, hok, hex, hun, hc⟩ := hb
    obtain ⟨e, m0, rfl⟩ := List.exists_cons_of_ne_nil hne
    refine ⟨(e.1, code e.2), codeM m0, by simp [code, codeM], codeM_notStruct (e :: m0), fun k => ?_⟩
    obtain ⟨w, hw, henc⟩ := he (.map (e :: m0)) (k + 1)
    obtain ⟨m', rfl, hm⟩ := reord_map hw
    have hr := reord_m hx.nfc hm
    obtain ⟨arr, ha⟩ := encMap_total hx.nfc m' (hr.ex hex) (k + 1) none
    have hall := encBody_ok (k + 1) none (by simp) m' arr (hr.body hok) ha
    have hi := items_M m'
    have hdec := decodeBody_back ho (hr.body hok) (hr.ex hex) (hr.unM hun) []
    rw [hr.canon hex (okBody_nodup hok), hc] at hdec
    refine ⟨mapText (k + 1) arr, bodyOf m', henc _ (by simp only [encV, ha]; rfl), ⟨fun tag ht => ?_, ?_⟩, fun body hb => ?_⟩
    · have := ItemOk.block (level := k + 1) (by simp) (NameOk.ident ht) hall (by
        rw [hi.1]; exact (okBody_nodup (hr.body hok)).sublist (attrsOf_keys m'))
      rw [hi.1, hi.2] at this
      exact this
    · exact ⟨_, 125, by rw [mapText, if_neg (by simp)], by decide⟩
    · refine hd.block _ body _ hb (lit_body m') (fun hn => ?_) hdec
      rw [hn] at hdec
      have h0 : ∀ p, hx.ord p [] = [] := fun p => (ho p []).eq_nil
      simp [decodeBody, blockResults, decodeBlocks, GoMap.keys, typesOf, dedupB, h0, assignAll, Out.bind] at hdec

theorem BlockFits.mono {env ext ref own good good' ty e spec ok k keys v}
    (h : BlockFits env ext ref own good ty e spec ok k keys v) (hg : ∀ ptr obj ls c fs, good ptr obj ls c fs → good' ptr obj ls c fs) :
    BlockFits env ext ref own good' ty e spec ok k keys v := by
  obtain ⟨c, fs, obj, ls, h1, h2, h3, h4, h5⟩ := h
  exact ⟨c, fs, obj, ls, h1, h2, h3, h4, fun ptr hp => ⟨(h5 ptr hp).1, hg _ _ _ _ _ (h5 ptr hp).2⟩⟩

theorem BlocksFit.mono {env ext ref own good good' ty spec v}
    (h : BlocksFit env ext ref own good ty spec v) (hg : ∀ ptr obj ls c fs, good ptr obj ls c fs → good' ptr obj ls c fs) :
    BlocksFit env ext ref own good' ty spec v := by
  unfold BlocksFit at h ⊢
  split at h
  · exact ⟨h.1, h.2.mono hg⟩
  · exact h.imp_right fun h => h.mono hg
  · exact h.imp_right fun h => h.mono hg
  · exact h.imp_right fun h => h.mono hg
  · exact h.imp_right fun ⟨l, h1, h2, h3⟩ => ⟨l, h1, h2, fun x hx => ⟨(h3 x hx).1, (h3 x hx).2.mono hg⟩⟩
  · exact h.imp_right fun ⟨l, h1, h2, h3, h4⟩ => ⟨l, h1, h2, h3, fun x hx => (h4 x hx).mono hg⟩
  · exact h.imp_right fun ⟨l, h1, h2, h3, h4⟩ => ⟨l, h1, h2, h3, fun x hx => (h4 x hx).mono hg⟩
  · exact h.elim

theorem FitsBy.mono {any any' env emb pe ext ref own good good' obj c fs}
    (h : FitsBy any env emb pe ext ref own good obj c fs) (ha : ∀ f v, AnyFld obj f → any f v → any' f v)
    (hg : ∀ ptr obj ls c fs, good ptr obj ls c fs → good' ptr obj ls c fs) : FitsBy any' env emb pe ext ref own good' obj c fs := by
  obtain ⟨h1, h2, h3, h4, h5⟩ := h
  refine ⟨h1, h2, h3, h4, fun f hf => ?_⟩
  obtain ⟨v, g1, g2, g3, g4, g5⟩ := h5 f hf
  exact ⟨v, g1, g2, g3, fun hs => (g4 hs).mono hg, fun hs => ha f v hs (g5 hs)⟩

theorem fits_data {env : Env} {emb : Nat} {pe : PExt} {ext : Ext} {hx : Hcl.Ext} {ref : GoMap Bytes Tmpl} (ho : ∀ p ks, (hx.ord p ks).Perm ks)
    (hd : GenericDec ext hx) (he : GenericEnc pe) : ∀ n obj c fs, FitsData hx.nfc env emb pe ext ref n obj c fs → Fits SourceOf env emb pe ext ref n obj c fs
  | 0, _, _, _, h => h
  | n + 1, _, _, _, h => FitsBy.mono h (fun _ _ hf ha => any_back ho hd he hf ha) fun _ _ _ _ _ h => ⟨fits_data ho hd he n _ _ _ h.1, h.2⟩

/-! ## Decoding a generic field -/

theorem givesAny_unique {d : Heap Cty → Nat → Except Fail (Val × Heap Cty)} {v w : Val} (h : GivesAny d v) (h' : GivesAny d w) : v = w := by
  have hi : Tree.Inv ([] : Heap Cty) := ⟨by simp, by simp, by simp⟩
  have hi' := hi.newTree []
  obtain ⟨a, h1, _⟩ := h _ 0 hi' (by simp [Tree.newTree])
  obtain ⟨a', h1', _⟩ := h' _ 0 hi' (by simp [Tree.newTree])
  rw [h1] at h1'
  cases h1'; rfl

theorem source_exists (e : Expr) : ∃ src, SourceOf src e := by
  by_cases h : ∃ s, parseX s = .ok e
  · exact ⟨h.choose, fun _ => h.choose_spec⟩
  · exact ⟨[], fun h' => absurd h' h⟩

/-- The content of a generic field of a struct that the document shows. -/
theorem displays_any {env : Env} {emb n : Nat} {ext : Ext} {ref : GoMap Bytes Tmpl} {obj body c fs f} (hs : Displays env emb ext ref n obj body c fs)
    (hf : f ∈ (env.flat emb c).fields) (hg : AnyFld obj f) : ∃ v, GoMap.get? fs f.name = some v ∧ AnyShows ext body f v := by
  cases n with
  | zero => exact hs.elim
  | succ n =>
    obtain ⟨v, h1, h2⟩ := hs.2.2.2.2.2 f hf
    exact ⟨v, h1, h2.generic hg⟩

end Verif.HclS
