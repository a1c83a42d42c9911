import Verif.Lemmas.OwnStruct
import Verif.Props.HclStructIfacePrint
/-!
# C111, C112: types with their own MarshalHCL and UnmarshalHCL inside of structs
-/
set_option linter.unusedSimpArgs false

namespace Verif.HclS
open Tree (Heap)
open Hcl (Cty Expr IsIdent SafeStr indent)
open Det (Cls CVal KeyTy ltB ltB2)

/-- **C111.** Blocks of types with `UnmarshalHCL` are decoded by the method, each called once on a new struct with the labels and the content of the
block, and what the methods make of them is stored like other structs: a document that, with the specification, writes a struct out
is decoded by `UnmarshalSpec` without error to exactly this struct, in every iteration order. -/
theorem C111_decodes_own {ms : Methods} {env : Env} {ext : Ext} {emb n m c : Nat} {body : Body} {fs : Fields} {obj : List (Bytes × CVal)}
    {labels : List Bytes} {st : St} {root : Option Nat} (hord : ∀ p l, (ext.ord p l).Perm l) (hz : ext.zero .str = .str [])
    (hinv : Tree.Inv st.heap) (hroot : ∀ r, root = some r → r < st.heap.length) (hcan : Canonical env ext st.ref)
    (hs : DisplaysBy env emb ext st.ref (DisplaysOwn ms env emb ext st.ref n) obj body c fs) (hl : LabelsAre (env.flat emb c) fs labels)
    (hn : n + emb ≤ m) :
    unmarshalSpecOwn ms env ext m (some body) c (newFields env ext c) (some obj) st root labels = ⟨fs, .ok ()⟩ := by
  have hlt := defaultTree_root hroot
  obtain ⟨hi0, _⟩ := defaultTree_step st.heap root hinv
  obtain ⟨st', hrun, _⟩ := decodeOwn_displays (ms := ms) (env := env) (root := (defaultTree st.heap root).2) (ref := st.ref) hord hz n m hn []
    ⟨(defaultTree st.heap root).1, st.ref⟩ (defaultTree st.heap root).2 c fs obj labels body hi0 hlt hlt hcan (RefLe.refl _) ⟨hs, hl⟩
  simp only [unmarshalSpecOwn, Option.getD_some, hrun, Done.of, Except.map]

/-- **C111: `Unmarshal`.** It calls the method of its target, too. -/
theorem C111_unmarshal {ms : Methods} {env : Env} {ext : Ext} {emb n m c : Nat} {body : Body} {fs : Fields}
    {labels : List Bytes} (hord : ∀ p l, (ext.ord p l).Perm l) (hz : ext.zero .str = .str []) (hcan : Canonical env ext [])
    (hs : DisplaysOwn ms env emb ext [] (n + 1) [] labels body c fs) (hn : n + emb ≤ m) :
    unmarshalOwn ms env ext m (some body) c (newFields env ext c) labels = ⟨fs, .ok ()⟩ := by
  simp only [DisplaysOwn] at hs
  unfold unmarshalOwn
  cases hu : ms.unmarshal c with
  | some u =>
    rw [hu] at hs
    dsimp only at hs ⊢
    rw [hs]
  | none =>
    rw [hu] at hs
    dsimp only at hs ⊢
    exact C111_decodes_own (st := ⟨[], []⟩) (root := none) (obj := []) hord hz ⟨by simp, by simp, by simp⟩ (by simp) hcan hs.1 hs.2 hn

/-- **C111: without methods.** The documents of C106 are among these. -/
theorem C111_extends_C106 {env : Env} {ext : Ext} {emb : Nat} {ref : GoMap Bytes Tmpl} : ∀ {n : Nat} {obj : List (Bytes × CVal)} {labels : List Bytes}
    {body : Body} {c : Nat} {fs : Fields}, DisplaysOwn .none env emb ext ref n obj labels body c fs ↔
      Displays env emb ext ref n obj body c fs ∧ LabelsAre (env.flat emb c) fs labels
  | 0, _, _, _, _, _ => ⟨fun h => h.elim, fun h => h.1.elim⟩
  | n + 1, obj, labels, body, c, fs => by
    have : DisplaysOwn .none env emb ext ref n = AndLabels env emb (Displays env emb ext ref n) := by
      funext obj labels body c fs
      exact propext C111_extends_C106
    simp only [DisplaysOwn, Displays, this]
    rfl

/-- **C112, for structs that fit.** What `Marshal` writes for a struct without `MarshalHCL` whose fields hold structs with the methods — as pointers, or
with methods for values, too — is a document, and `UnmarshalSpec` of this document gives the struct, if the text of every method is
a document (in the subset of HCL of `Model/HclSyntax`, without heredocs) that `UnmarshalHCL` of the type understands without labels
other than the keys of maps.  Missing for the full claim: structs as in the counterexamples here and for C72, C105 and C107. -/
theorem C112_partial {S : Bytes → Hcl.Expr → Prop} {ms : Methods} {env : Env} {pe : PExt} {ext : Ext} {emb n m c : Nat} {ptr : Bool} {v : Val} {fs : Fields}
    {obj : List (Bytes × CVal)} {labels : List Bytes} {st : St} {root : Option Nat}
    (hord : ∀ p l, (ext.ord p l).Perm l) (hpo : ∀ p l, (pe.ord p l).Perm l) (hpo2 : ∀ p l, (pe.ord2 p l).Perm l)
    (hz : ZeroOkI ext) (hinv : Tree.Inv st.heap) (hroot : ∀ r, root = some r → r < st.heap.length) (hcan : Canonical env ext st.ref)
    (hv : ptr = true ∧ v = .ref c fs ∨ ptr = false ∧ v = .inst c fs ∧ ¬ v.Zero) (hm : ms.marshal ptr c = none)
    (hw : FitsBy (AnyGood S pe ext) env emb pe ext st.ref (writtenOwn ms env emb) (FitsOwn S ms env emb pe ext st.ref n) obj c fs)
    (hl : LabelsAre (env.flat emb c) fs labels) (hn : n + emb ≤ m) :
    ∃ text doc, marshalOwn ms env pe v = .ok text ∧ Hcl.parseConfig text = .ok doc ∧ ∀ body, Reads S doc body →
      unmarshalSpecOwn ms env ext m (some body) c (newFields env ext c) (some obj) st root labels = ⟨fs, .ok ()⟩ := by
  have hd : marshalOwn ms env pe v = marshalStruct env pe (marshalOwnN ms env pe (depthF fs)) [] 0 [] ptr c fs := by
    rcases hv with ⟨rfl, rfl⟩ | ⟨rfl, rfl, hz⟩
    · simp [marshalOwn, levelText, Val.isZero, Val.depth, marshalOwnN, plusPRec, hm]
    · simp [marshalOwn, levelText, isZero_false.2 hz, Val.depth, marshalOwnN, plusPRec, hm]
  obtain ⟨t, h1, h2⟩ := fitsOwn_rendered hz hpo hpo2 n (depthF fs) obj [] 0 [] ptr c fs hw (by omega)
  obtain ⟨doc, h3, h4⟩ := rendered_root h2
  exact ⟨t, doc, hd.trans h1, h3, fun body hb => C111_decodes_own hord hz.str hinv hroot hcan (h4 body hb) hl hn⟩

/-- **C112: `Marshal` and `Unmarshal`.** The same for any struct, whose own methods are called. -/
theorem C112_unmarshal_partial {S : Bytes → Hcl.Expr → Prop} {ms : Methods} {env : Env} {pe : PExt} {ext : Ext} {emb n m c : Nat} {ptr : Bool} {v : Val} {fs : Fields}
    {labels : List Bytes} (hord : ∀ p l, (ext.ord p l).Perm l) (hpo : ∀ p l, (pe.ord p l).Perm l) (hpo2 : ∀ p l, (pe.ord2 p l).Perm l)
    (hz : ZeroOkI ext) (hcan : Canonical env ext [])
    (hv : ptr = true ∧ v = .ref c fs ∨ ptr = false ∧ v = .inst c fs ∧ ¬ v.Zero)
    (hw : FitsOwn S ms env emb pe ext [] (n + 1) ptr [] labels c fs) (hn : n + emb ≤ m) :
    ∃ text doc, marshalOwn ms env pe v = .ok text ∧ Hcl.parseConfig text = .ok doc ∧ ∀ body, Reads S doc body →
      unmarshalOwn ms env ext m (some body) c (newFields env ext c) labels = ⟨fs, .ok ()⟩ := by
  have hd : marshalOwn ms env pe v = plusPRec ms (marshalStruct env pe (marshalOwnN ms env pe (depthF fs))) [] 0 [] ptr c fs := by
    rcases hv with ⟨rfl, rfl⟩ | ⟨rfl, rfl, hz⟩
    · simp [marshalOwn, levelText, Val.isZero, Val.depth, marshalOwnN]
    · simp [marshalOwn, levelText, isZero_false.2 hz, Val.depth, marshalOwnN]
  simp only [FitsOwn] at hw
  rw [hd]
  unfold plusPRec
  cases hm : ms.marshal ptr c with
  | some mm =>
    rw [hm] at hw
    obtain ⟨text, doc, h1, h2, h3⟩ := hw
    refine ⟨text, doc, ?_, h2, fun body hb => C111_unmarshal hord hz.str hcan (h3 body hb) hn⟩
    have := C105_root text
    simp only [ownLevel, Bool.false_eq_true, if_false, Except.map, Except.ok.injEq] at this
    simp only [h1, Except.map, this]
  | none =>
    rw [hm] at hw
    obtain ⟨hw, hr⟩ := hw
    obtain ⟨t, h1, h2⟩ := fitsOwn_rendered hz hpo hpo2 n (depthF fs) [] [] 0 [] ptr c fs hw (by omega)
    obtain ⟨doc, h3, h4⟩ := rendered_root h2
    refine ⟨t, doc, h1, h3, fun body hb => C111_unmarshal hord hz.str hcan (n := n) (emb := emb) ?_ hn⟩
    simp only [DisplaysOwn]
    cases hu : ms.unmarshal c with
    | some u =>
      rw [hu] at hr
      exact hr body (h4 body hb)
    | none =>
      rw [hu] at hr
      exact ⟨h4 body hb, hr⟩

/-! ## Examples -/

namespace Demo

/-- `UnmarshalHCL` of `Item`: the label and the attribute `v`. -/
def readItem (_ : Fields) (labels : List Bytes) (body : Body) : Except Fail Fields :=
  match GoMap.get? body.attrs (b "v") with
  | some ⟨.str s, _⟩ => .ok [(b "Id", .str (labels.headD [])), (b "Val", .str s)]
  | _ => .error .err

/-- `MarshalHCL` of `Item`: the attribute `v`. -/
def writeItem (fs : Fields) : Except Fail Bytes :=
  match GoMap.get? fs (b "Val") with
  | some (.str s) => .ok (b "v = \"" ++ s ++ b "\"")
  | _ => .error .err

/-- Both methods of `Item` have a pointer receiver. -/
def msItem : Methods := ⟨fun ptr c => if ptr = true ∧ c = 1 then some writeItem else none, fun c => if c = 1 then some readItem else none⟩

def leafV (v : String) : Body := .mk [str "v" v] []

theorem canonical0 : Canonical env ext [] := by
  intro k t h
  exact ⟨fun t' h' => (by cases h'), (canonical k t h).2⟩

def orderly3' : Orderly env 0 [] 3 where
  kinds := by
    intro f hf
    rcases regular3.kinds f hf with h | h | h
    · exact .inl h
    · exact .inr (.inl ⟨h, rfl⟩)
    · exact .inr (.inr (.inl ⟨h.decodes, .inr h.ty⟩))
  names := regular3.names
  tags := regular3.tags
  promoted := regular3.promoted
  apart := regular3.apart
  free := fun _ _ => rfl

/-- A document with blocks for the method and others. -/
def mixedDoc : Body := .mk [str "name" "n"]
  [(b "items", [b "a"], leafV "1"), (b "map", [b "k"], leaf "4"), (b "items", [], leafV "2"), (b "one", [b "x", b "y"], leafV "3")]
def mixedStruct : Fields :=
  [(b "Name", .str (b "n")), (b "Items", .slice [one "a" "1", one "" "2"]), (b "Map", .map [(b "k", .inst 2 [(b "Val", .str (b "4"))])]),
   (b "Pairs", .leaf 0), (b "One", one "x" "3")]

theorem displays_of {ms : Methods} {emb n : Nat} {ref : GoMap Bytes Tmpl} {obj labels body c fs} (hu : ms.unmarshal c = none)
    (h : DisplaysBy env emb ext ref (DisplaysOwn ms env emb ext ref n) obj body c fs) (hl : LabelsAre (env.flat emb c) fs labels) :
    DisplaysOwn ms env emb ext ref (n + 1) obj labels body c fs := by
  simp only [DisplaysOwn, hu]
  exact ⟨h, hl⟩

section
variable {shows : List (Bytes × CVal) → List Bytes → Body → Nat → Fields → Prop} {ref : GoMap Bytes Tmpl} {body : Body} {f : Fld} {v : Val}

theorem displays_plain' (h : PlainFld f) (hv : AttrShows ext body f v) : FieldDisplays env ext ref shows [] body f v :=
  ⟨fun h' => absurd h'.what h.decodes.notLabel, fun _ => hv, fun h' => absurd (⟨h'.decodes, h'.ty.resolve_left (by simp [GoMap.get?])⟩ : BlockFld f) (not_plain_block h),
    fun h' => absurd h' (not_plain_any h)⟩

theorem displays_block' (h : BlockFld f) (hv : BlocksDisplay env ext ref shows f.ty none (blocksOf body f.tag) v) :
    FieldDisplays env ext ref shows [] body f v :=
  ⟨fun h' => absurd h'.what h.decodes.notLabel, fun h' => absurd h (not_plain_block h'.1), fun _ => hv, fun h' => absurd h' (not_block_any h)⟩

theorem displays2' (n : Nat) (v : String) {ms : Methods} (hu : ms.unmarshal 2 = none) (labels : List Bytes) :
    DisplaysOwn ms env 0 ext ref (n + 1) [] labels (leaf v) 2 [(b "Val", .str (b v))] := by
  refine displays_of hu ⟨⟨fun f hf => ?_, regular2.names, regular2.tags, regular2.promoted, regular2.apart, fun _ _ => rfl⟩, rfl, ?_,
    by simp [leaf, Body.attrs], by simp [leaf, Body.blocks], ?_⟩ (labels2 _ _)
  · exact .inr (.inl ⟨plain_of (by rw [List.mem_singleton.1 hf]; simp), rfl⟩)
  · intro a ha
    simp only [leaf, Body.attrs, List.mem_singleton] at ha
    exact ⟨fVal, by simp [env, Env.flat, flatten], .inl ⟨plain_of (by simp), rfl⟩, by rw [ha]; rfl⟩
  · intro f hf
    rw [List.mem_singleton.1 hf]
    exact ⟨_, rfl, displays_plain' (plain_of (by simp)) (attr_val v)⟩

end

theorem mixed_displays (ref : GoMap Bytes Tmpl) : DisplaysBy env 0 ext ref (DisplaysOwn msItem env 0 ext ref 1) [] mixedDoc 3 mixedStruct := by
  have hb : ∀ {f}, f ∈ [fItems, fMap, fPairs, fOne] → SpecFld [] f := fun hf => ⟨(block_of hf).decodes, .inr (block_of hf).ty⟩
  have h1 : ∀ {ty k ls i v}, ls.headD [] = b i → BlockDisplays env ext ref (DisplaysOwn msItem env 0 ext ref 1) ty (.ptr (.struct 1)) none (fun _ _ => True) k (ls, leafV v) (one i v) := by
    intro ty k ls i v hl
    refine ⟨1, _, [], .own rfl, trivial, .ptr, ?_⟩
    simp only [DisplaysOwn, msItem, if_true, readItem, hl, leafV]
    rfl
  refine ⟨orderly3', rfl, ?_, by simp [mixedDoc, Body.attrs], ?_, ?_⟩
  · intro a ha
    simp only [mixedDoc, Body.attrs, List.mem_singleton] at ha
    exact ⟨fName, by simp [env, Env.flat, flatten], .inl ⟨plain_of (by simp), rfl⟩, by rw [ha]; rfl⟩
  · intro x hx
    simp only [mixedDoc, Body.blocks, List.mem_cons, List.not_mem_nil, or_false] at hx
    rcases hx with rfl | rfl | rfl | rfl
    · exact ⟨fItems, by simp [env, Env.flat, flatten], .inl (hb (by simp)), rfl⟩
    · exact ⟨fMap, by simp [env, Env.flat, flatten], .inl (hb (by simp)), rfl⟩
    · exact ⟨fItems, by simp [env, Env.flat, flatten], .inl (hb (by simp)), rfl⟩
    · exact ⟨fOne, by simp [env, Env.flat, flatten], .inl (hb (by simp)), rfl⟩
  · intro f hf
    have hf' : f = fName ∨ f = fItems ∨ f = fMap ∨ f = fPairs ∨ f = fOne := by simpa [env, Env.flat, flatten] using hf
    rcases hf' with rfl | rfl | rfl | rfl | rfl
    · refine ⟨_, rfl, displays_plain' (plain_of (by simp)) ?_⟩
      have h : GoMap.get? mixedDoc.attrs fName.tag = some ⟨.str (b "n"), []⟩ := rfl
      simp only [AttrShows, h]
      exact ⟨.str, .str (b "n"), rfl, by simp, rfl⟩
    · refine ⟨_, rfl, displays_block' (block_of (by simp)) ?_⟩
      rw [show blocksOf mixedDoc fItems.tag = [([b "a"], leafV "1"), ([], leafV "2")] from rfl]
      exact .inr ⟨by simp, _, rfl, .cons (h1 rfl) (.cons (h1 rfl) .nil)⟩
    · refine ⟨_, rfl, displays_block' (block_of (by simp)) ?_⟩
      rw [show blocksOf mixedDoc fMap.tag = [([b "k"], leaf "4")] from rfl]
      exact .inr ⟨by simp, _, _, rfl, .cons (by simp) .nil, .refl _, .cons ⟨2, _, [], .own rfl, rfl, .struct, displays2' 0 "4" rfl _⟩ .nil⟩
    · exact ⟨_, rfl, displays_block' (block_of (by simp)) (Or.inl ⟨rfl, rfl⟩)⟩
    · refine ⟨_, rfl, displays_block' (block_of (by simp)) ?_⟩
      rw [show blocksOf mixedDoc fOne.tag = [([b "x", b "y"], leafV "3")] from rfl]
      exact .inr ⟨by simp, _, rfl, h1 rfl⟩

end Demo

-- `C111_decodes_own` and `C111_unmarshal` for this document.
example : unmarshalSpecOwn Demo.msItem Demo.env Demo.ext 1 (some Demo.mixedDoc) 3 (newFields Demo.env Demo.ext 3) (some []) ⟨[], Demo.ref0⟩ none [] =
    ⟨Demo.mixedStruct, .ok ()⟩ :=
  C111_decodes_own (fun _ _ => .refl _) rfl ⟨by simp, by simp, by simp⟩ (by simp) Demo.canonical (Demo.mixed_displays _)
    ⟨fun _ => rfl, fun h => absurd rfl h⟩ (by omega)

example : unmarshalOwn Demo.msItem Demo.env Demo.ext 1 (some Demo.mixedDoc) 3 (newFields Demo.env Demo.ext 3) [] = ⟨Demo.mixedStruct, .ok ()⟩ :=
  C111_unmarshal (n := 1) (fun _ _ => .refl _) rfl Demo.canonical0
    (Demo.displays_of rfl (Demo.mixed_displays _) ⟨fun _ => rfl, fun h => absurd rfl h⟩) (by omega)

example : unmarshalOwn Demo.msItem Demo.env Demo.ext 0 (some (Demo.leafV "1")) 1 (newFields Demo.env Demo.ext 1) [b "a"] =
    ⟨[(b "Id", .str (b "a")), (b "Val", .str (b "1"))], .ok ()⟩ :=
  C111_unmarshal (n := 0) (emb := 0) (fun _ _ => .refl _) rfl Demo.canonical0 (by simp only [DisplaysOwn]; rfl) (by omega)

namespace Demo

/-- A struct with pointers to structs that have the methods; they have no labels. -/
def ownStruct : Fields :=
  [(b "Name", .str (b "n")), (b "Items", .slice [one "" "1", one "" "2"]), (b "Map", .leaf 0), (b "Pairs", .leaf 0), (b "One", one "" "3")]

theorem own_fits {v : String} {t : Bytes} {doc} (n : Nat) (ref : GoMap Bytes Tmpl) (ht : writeItem [(b "Id", .str (b "")), (b "Val", .str (b v))] = .ok t)
    (hd : Hcl.parseConfig t = .ok doc) (hr : ∀ body, Reads S doc body → readItem [] [] body = .ok [(b "Id", .str (b "")), (b "Val", .str (b v))]) :
    FitsOwn S msItem env 0 pe ext ref (n + 1) true [] [] 1 [(b "Id", .str (b "")), (b "Val", .str (b v))] := by
  have : msItem.marshal true 1 = some writeItem := rfl
  simp only [FitsOwn, this]
  refine ⟨t, doc, ht, hd, fun body hb => ?_⟩
  have : msItem.unmarshal 1 = some readItem := rfl
  simp only [DisplaysOwn, this]
  exact hr body hb

theorem own_reads {v : String} {body : Body} (h : Reads S (.mk [(b "v", .str (b v))] []) body) : readItem [] [] body = .ok [(b "Id", .str (b "")), (b "Val", .str (b v))] := by
  cases h with
  | mk h1 h2 =>
    cases h1 with
    | @cons _ a' _ _ h3 h4 =>
      cases h4
      obtain ⟨e1, e2, _⟩ := h3
      obtain ⟨k, e, src⟩ := a'
      simp only at e1 e2
      subst e1 e2
      rfl

theorem ownStruct_fits (ref : GoMap Bytes Tmpl) : FitsBy (AnyGood S pe ext) env 0 pe ext ref (writtenOwn msItem env 0) (FitsOwn S msItem env 0 pe ext ref 1) [] 3 ownStruct := by
  have h1 : ∀ {ty k v t}, writeItem [(b "Id", .str (b "")), (b "Val", .str (b v))] = .ok t → Hcl.parseConfig t = .ok (.mk [(b "v", .str (b v))] []) →
      BlockFits env ext ref (writtenOwn msItem env 0) (FitsOwn S msItem env 0 pe ext ref 1) ty (.ptr (.struct 1)) none (fun _ _ => True) k [] (one "" v) := by
    intro ty k v t h2 h3
    refine ⟨1, _, [], [], .own rfl, trivial, .ptr, by simp, fun ptr hp => ?_⟩
    cases (hp : ptr = true)
    exact ⟨rfl, own_fits 0 ref h2 h3 fun _ h => own_reads h⟩
  have hb : ∀ {f v}, f ∈ [fItems, fMap, fPairs, fOne] → GoMap.get? ownStruct f.name = some v →
      BlocksFit env ext ref (writtenOwn msItem env 0) (FitsOwn S msItem env 0 pe ext ref 1) f.ty none v →
      ∃ v, GoMap.get? ownStruct f.name = some v ∧ (LabelFld f → ∃ s, v = .str s) ∧ (FreeFld [] f → PlainGood pe ext f v) ∧
        (SpecFld [] f → BlocksFit env ext ref (writtenOwn msItem env 0) (FitsOwn S msItem env 0 pe ext ref 1) f.ty (GoMap.get? [] f.name) v) ∧ (AnyFld [] f → AnyGood S pe ext f v) := by
    intro f v hf hg hv
    exact ⟨v, hg, fun h => absurd (block_of hf) (not_label_block h), fun h => absurd (block_of hf) (not_plain_block h.1), fun _ => hv,
      fun h => absurd h (not_block_any (block_of hf))⟩
  refine ⟨orderly3', ⟨Nat.zero_le _, by simp [embeddedIn]⟩, rfl, full_writable.2.2.2.1, fun f hf => ?_⟩
  have hf' : f = fName ∨ f = fItems ∨ f = fMap ∨ f = fPairs ∨ f = fOne := by simpa [env, Env.flat, flatten] using hf
  rcases hf' with rfl | rfl | rfl | rfl | rfl
  · have hn : Short "n" := ⟨110, rfl, by decide⟩
    have hp : PlainFld fName := plain_of (by simp)
    exact ⟨_, rfl, fun h => absurd h.what hp.decodes.notLabel, fun _ => good_str rfl hn.safe hn.ne hn.lines,
      fun h => absurd (⟨h.decodes, h.ty.resolve_left (by simp [GoMap.get?])⟩ : BlockFld fName) (not_plain_block hp), fun h => absurd h (not_plain_any hp)⟩
  · refine hb (by simp) rfl (Or.inr ⟨_, by simp, rfl, fun x hx => ?_⟩)
    simp only [List.zipIdx_cons, List.zipIdx_nil, List.mem_cons, List.not_mem_nil, or_false] at hx
    rcases hx with rfl | rfl
    · exact ⟨id, h1 rfl (by rfl)⟩
    · exact ⟨id, h1 rfl (by rfl)⟩
  · exact hb (by simp) rfl (Or.inl rfl)
  · exact hb (by simp) rfl (Or.inl rfl)
  · exact hb (by simp) rfl (Or.inr (h1 rfl (by rfl)))

end Demo

-- `C112_partial` and `C112_unmarshal_partial` for this struct.
example : ∃ text doc, marshalOwn Demo.msItem Demo.env Demo.pe (.ref 3 Demo.ownStruct) = .ok text ∧ Hcl.parseConfig text = .ok doc ∧ ∀ body, Reads AnySrc doc body →
    unmarshalSpecOwn Demo.msItem Demo.env Demo.ext 1 (some body) 3 (newFields Demo.env Demo.ext 3) (some []) ⟨[], Demo.ref0⟩ none [] = ⟨Demo.ownStruct, .ok ()⟩ :=
  C112_partial (fun _ _ => .refl _) (fun _ _ => .refl _) (fun _ _ => .refl _) Demo.zeroOkI ⟨by simp, by simp, by simp⟩ (by simp) Demo.canonical
    (.inl ⟨rfl, rfl⟩) rfl (Demo.ownStruct_fits _) ⟨fun _ => rfl, fun h => absurd rfl h⟩ (by omega)

example : ∃ text doc, marshalOwn Demo.msItem Demo.env Demo.pe (.ref 3 Demo.ownStruct) = .ok text ∧ Hcl.parseConfig text = .ok doc ∧ ∀ body, Reads AnySrc doc body →
    unmarshalOwn Demo.msItem Demo.env Demo.ext 1 (some body) 3 (newFields Demo.env Demo.ext 3) [] = ⟨Demo.ownStruct, .ok ()⟩ :=
  C112_unmarshal_partial (n := 1) (fun _ _ => .refl _) (fun _ _ => .refl _) (fun _ _ => .refl _) Demo.zeroOkI Demo.canonical0
    (.inl ⟨rfl, rfl⟩) ⟨Demo.ownStruct_fits _, fun _ => rfl, fun h => absurd rfl h⟩ (by omega)

set_option maxRecDepth 20000 in
-- What is written.
example : marshalOwn Demo.msItem Demo.env Demo.pe (.ref 3 Demo.ownStruct) = .ok (b
"  name = \"n\"
  items {    
  v = \"1\"
  }
  items {    
  v = \"2\"
  }
  one {    
  v = \"3\"
  }") := by rfl

/-! ## Counterexamples -/

namespace Demo

/-- `UnmarshalHCL` of `Other`: the attribute `v`. -/
def readOther (_ : Fields) (_ : List Bytes) (body : Body) : Except Fail Fields :=
  match GoMap.get? body.attrs (b "v") with
  | some ⟨.str s, _⟩ => .ok [(b "Val", .str s)]
  | _ => .error .err

/-- Both methods of `Other` have a pointer receiver. -/
def msOther : Methods := ⟨fun ptr c => if ptr = true ∧ c = 2 then some writeItem else none, fun c => if c = 2 then some readOther else none⟩

/-- A map of values of type `Other`, and a slice of pointers to items with labels. -/
def values : Fields :=
  [(b "Name", .str []), (b "Items", .leaf 0), (b "Map", .map [(b "k", .inst 2 [(b "Val", .str (b "4"))])]), (b "Pairs", .leaf 0), (b "One", .leaf 0)]

end Demo

set_option maxRecDepth 20000 in
/-- **C112 is violated: values.** Methods with pointer receivers are not called for values in maps and slices, so that the usual text is written;
but `UnmarshalHCL` is called for it. -/
theorem C112_violated_values : ∃ text doc, marshalOwn Demo.msOther Demo.env Demo.pe (.ref 3 Demo.values) = .ok text ∧ Hcl.parseConfig text = .ok doc ∧
    (unmarshalOwn Demo.msOther Demo.env Demo.ext 1 (some (ofDoc doc)) 3 (newFields Demo.env Demo.ext 3) []).outcome = .error .err := by
  exact ⟨b "  map \"k\" {\n    val = \"4\"\n  }", .mk [] [(b "map", [b "k"], .mk [(b "val", .str (b "4"))] [])], by rfl, by rfl, by rfl⟩

set_option maxRecDepth 20000 in
/-- The same value behind a pointer comes back: the methods belong together. -/
theorem C112_violated_values_pointer : ∃ text doc, marshalOwn Demo.msOther Demo.env Demo.pe (.ref 2 [(b "Val", .str (b "4"))]) = .ok text ∧
    Hcl.parseConfig text = .ok doc ∧
    unmarshalOwn Demo.msOther Demo.env Demo.ext 1 (some (ofDoc doc)) 2 (newFields Demo.env Demo.ext 2) [] = ⟨[(b "Val", .str (b "4"))], .ok ()⟩ := by
  exact ⟨b "v = \"4\"", .mk [(b "v", .str (b "4"))] [], by rfl, by rfl, by rfl⟩

set_option maxRecDepth 20000 in
/-- **C112 is violated: labels.** The labels of a struct with `MarshalHCL` are not written before its block, and the method cannot write them; so
`UnmarshalHCL` does not get them. -/
theorem C112_violated_labels : ∃ text doc, marshalOwn Demo.msItem Demo.env Demo.pe (.ref 3 (Demo.items [Demo.one "i" "1"])) = .ok text ∧
    Hcl.parseConfig text = .ok doc ∧
    unmarshalOwn Demo.msItem Demo.env Demo.ext 1 (some (ofDoc doc)) 3 (newFields Demo.env Demo.ext 3) [] =
      ⟨Demo.items [Demo.one "" "1"], .ok ()⟩ ∧ Demo.items [Demo.one "" "1"] ≠ Demo.items [Demo.one "i" "1"] := by
  refine ⟨b "  items {    \n  v = \"1\"\n  }", .mk [] [(b "items", [], .mk [(b "v", .str (b "1"))] [])], by rfl, by rfl, by rfl, ?_⟩
  intro h
  simp only [Demo.items, Demo.one, List.cons.injEq, Prod.mk.injEq, Val.slice.injEq, Val.ref.injEq, Val.str.injEq, true_and, and_true] at h
  revert h
  decide +kernel

set_option maxRecDepth 20000 in
/-- **C112 is violated: `UnmarshalSpec`.** `Marshal` calls `MarshalHCL` of its argument, but `UnmarshalSpec` does not call `UnmarshalHCL` of its
target. -/
theorem C112_violated_spec : ∃ text doc, marshalOwn Demo.msItem Demo.env Demo.pe (Demo.one "" "1") = .ok text ∧ Hcl.parseConfig text = .ok doc ∧
    unmarshalOwn Demo.msItem Demo.env Demo.ext 1 (some (ofDoc doc)) 1 (newFields Demo.env Demo.ext 1) [] =
      ⟨[(b "Id", .str (b "")), (b "Val", .str (b "1"))], .ok ()⟩ ∧
    (unmarshalSpecOwn Demo.msItem Demo.env Demo.ext 1 (some (ofDoc doc)) 1 (newFields Demo.env Demo.ext 1) none ⟨[], []⟩ none []).outcome = .error .err := by
  exact ⟨b "v = \"1\"", .mk [(b "v", .str (b "1"))] [], by rfl, by rfl, by rfl, by rfl⟩

end Verif.HclS
