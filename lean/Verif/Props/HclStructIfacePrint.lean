import Verif.Lemmas.HclStructIfacePrint
import Verif.Props.HclStructIface
import Verif.Props.HclStructPrint
/-!
# Writing a struct with interfaces and reading it back with a specification
-/
set_option linter.unusedSimpArgs false

namespace Verif.HclS
open Tree (Heap)
open Hcl (Cty Expr IsIdent SafeStr indent)
open Det (Cls CVal KeyTy ltB ltB2)

/-- **C107, for structs that fit the specification.** What `Marshal` writes for a struct with fields of interface type, or for a
pointer to it, is a document, and `UnmarshalSpec` of this document, with a specification that names the classes of the structs in
these fields, gives the struct, in every iteration order, whatever else is in `ref` and in the tree of variables.  Missing for the
full claim: structs as in the counterexamples here and for C72.  For the content of generic fields see C114. -/
theorem C107_partial {S : Bytes → Expr → Prop} {env : Env} {pe : PExt} {ext : Ext} {emb n m c : Nat} {v : Val} {fs : Fields} {obj : List (Bytes × CVal)}
    {labels : List Bytes} {st : St} {root : Option Nat}
    (hord : ∀ p l, (ext.ord p l).Perm l) (hpo : ∀ p l, (pe.ord p l).Perm l) (hpo2 : ∀ p l, (pe.ord2 p l).Perm l)
    (hz : ZeroOkI ext) (hinv : Tree.Inv st.heap) (hroot : ∀ r, root = some r → r < st.heap.length) (hcan : Canonical env ext st.ref)
    (hv : v = .ref c fs ∨ v = .inst c fs ∧ ¬ v.Zero) (hw : Fits S env emb pe ext st.ref n obj c fs)
    (hl : LabelsAre (env.flat emb c) fs labels) (hn : n + emb ≤ m + 1) :
    ReadsBackAs S env pe ext m v obj labels st root c fs := by
  obtain ⟨addr, hd, hm⟩ : ∃ addr, v.depth = depthF fs + 1 ∧ marshalVal env pe v = marshalN env pe (depthF fs + 1) [] 0 [] addr c fs := by
    rcases hv with rfl | ⟨rfl, hz⟩
    · exact ⟨true, by simp [Val.depth], by simp [marshalVal, levelText, Val.isZero, Val.depth]⟩
    · exact ⟨false, by simp [Val.depth], by simp [marshalVal, levelText, isZero_false.2 hz, Val.depth]⟩
  obtain ⟨t, h1, h2⟩ := fits_rendered hz hpo hpo2 n (depthF fs + 1) obj [] 0 [] addr c fs hw (by omega)
  obtain ⟨doc, h3, h4⟩ := rendered_root h2
  exact ⟨t, doc, hm.trans h1, h3, fun body hb => C106_decodes_interfaces hord hz.str hinv hroot hcan (h4 body hb) hl hn⟩

/-- **C107: nothing is lost.** Two structs that fit the same specification and are written as the same text are equal. -/
theorem C107_injective {S : Bytes → Expr → Prop} {env : Env} {pe : PExt} {ext : Ext} {emb n n' c : Nat} {fs fs' : Fields} {obj : List (Bytes × CVal)}
    {labels : List Bytes} {ref : GoMap Bytes Tmpl} (hord : ∀ p l, (ext.ord p l).Perm l) (hpo : ∀ p l, (pe.ord p l).Perm l)
    (hpo2 : ∀ p l, (pe.ord2 p l).Perm l) (hz : ZeroOkI ext) (hcan : Canonical env ext ref)
    (hS : ∀ e, ∃ src, S src e) (hw : Fits S env emb pe ext ref n obj c fs) (hl : LabelsAre (env.flat emb c) fs labels)
    (hw' : Fits S env emb pe ext ref n' obj c fs') (hl' : LabelsAre (env.flat emb c) fs' labels)
    (he : marshalVal env pe (.ref c fs) = marshalVal env pe (.ref c fs')) : fs = fs' := by
  have hi : Tree.Inv ([] : Heap Cty) := ⟨by simp, by simp, by simp⟩
  obtain ⟨t, doc, h1, h2, h3⟩ := C107_partial (v := .ref c fs) (m := max n n' + emb) (st := ⟨[], ref⟩) (root := none) hord hpo hpo2 hz hi (by simp) hcan (.inl rfl) hw hl (by omega)
  obtain ⟨t', doc', h1', h2', h3'⟩ := C107_partial (v := .ref c fs') (m := max n n' + emb) (st := ⟨[], ref⟩) (root := none) hord hpo hpo2 hz hi (by simp) hcan (.inl rfl) hw' hl' (by omega)
  rw [← he, h1] at h1'
  cases h1'
  rw [h2] at h2'
  cases h2'
  obtain ⟨body, hb⟩ := exists_reads hS doc
  exact (h3 _ hb).2.symm.trans (h3' _ hb).2

/-- **C107: without specification.** The structs of C72 are among these. -/
theorem C107_extends_C72 {S : Bytes → Expr → Prop} {env : Env} {pe : PExt} {ext : Ext} {emb : Nat} (ref : GoMap Bytes Tmpl) : ∀ {n c : Nat} {fs : Fields},
    Writable env emb pe ext n c fs → Fits S env emb pe ext ref n [] c fs
  | 0, _, _, h => h.elim
  | n + 1, c, fs, h => by
    obtain ⟨h1, h2, h3, h4, h5⟩ := h
    have ih : ∀ {c fs}, Writable env emb pe ext n c fs → Fits S env emb pe ext ref n [] c fs := fun h => C107_extends_C72 ref h
    refine ⟨⟨fun f hf => ?_, h1.names, h1.tags, h1.promoted, h1.apart, fun _ _ => rfl⟩, h2, h3, h4, fun f hf => ?_⟩
    · rcases h1.kinds f hf with h | h | h
      · exact .inl h
      · exact .inr (.inl ⟨h, rfl⟩)
      · exact .inr (.inr (.inl ⟨h.decodes, .inr h.ty⟩))
    · obtain ⟨v, hg, hl, hp, hv⟩ := h5 f hf
      have hblk : ∀ {ty e ok k keys v}, BlockVal env emb (Writable env emb pe ext n) keys e v →
          (∀ c fs, Holds env e c fs v → ok (keys ++ writtenLabels (env.flat emb c) fs keys.head?) c) →
          BlockFits env ext ref (fun _ c => writtenLabels (env.flat emb c)) (fun _ obj labels c fs => Fits S env emb pe ext ref n obj c fs ∧ LabelsAre (env.flat emb c) fs labels) ty e none ok k keys v := by
        rintro ty e ok k keys v ⟨c, fs, h6, h7, h8, h9, h10⟩ hok
        exact ⟨c, fs, [], _, .own h6, hok c fs h7, h7, h9, fun _ _ => ⟨rfl, ih h8, h10⟩⟩
      have hno : ¬ AnyFld [] f := by
        intro h
        rcases h1.kinds f hf with h' | h' | h'
        · exact h.decodes.notLabel h'.what
        · exact not_plain_any h' h
        · exact not_block_any h' h
      refine ⟨v, hg, hl, fun h => hp h.1, fun h => ?_, fun h => absurd h hno⟩
      have hb : BlockFld f := ⟨h.decodes, h.ty.resolve_left (by simp [GoMap.get?])⟩
      have hv := hv hb
      have hty := hb.ty
      show BlocksFit env ext ref _ _ f.ty none v
      generalize f.ty = ty at hv hty
      match ty, hty, hv with
      | .struct _, _, hv => exact ⟨hv.1, hblk hv.2 fun _ _ _ => trivial⟩
      | .ptr (.struct _), _, hv => exact hv.imp_right fun hv => hblk hv fun _ _ _ => trivial
      | .slice e, _, hv =>
        refine hv.imp_right ?_
        rintro ⟨l, hne, he, hx'⟩
        exact ⟨l, hne, he, fun x hx => (hx' x.1 (List.fst_mem_of_mem_zipIdx hx)).imp_right fun h => hblk h fun _ _ _ => trivial⟩
      | .map .str e, _, hv =>
        refine hv.imp_right ?_
        rintro ⟨m, hne, he, hs, hm⟩
        exact ⟨m, hne, he, hs, fun x hx => hblk (hm x hx) fun _ _ _ => trivial⟩
      | .map .str2 e, _, hv =>
        refine hv.imp_right ?_
        rintro ⟨m, hne, he, hs, hm⟩
        refine ⟨m, hne, he, hs, fun x hx => hblk (hm x hx).2.1 fun c fs hh => ?_⟩
        obtain ⟨h9, _, h10⟩ := hm x hx
        obtain ⟨h11, h12⟩ := h10 c fs hh
        have hhd : (pairLabels x.1).head? = some x.1.1 := by simp [pairLabels, h9]
        rw [hhd, h11, List.append_nil]
        refine ⟨h9, ?_⟩
        by_cases h13 : x.1.2 = []
        · exact .inr ⟨h13, by simp [pairLabels, h9, h13], h12 h13⟩
        · exact .inl ⟨h13, by simp [pairLabels, h9, h13]⟩

namespace Demo

theorem zeroOkI : ZeroOkI ext := ⟨zeroOk, rfl, fun _ => rfl⟩

section
variable {own : Bool → Nat → Fields → Option Bytes → List Bytes} {good : Bool → List (Bytes × CVal) → List Bytes → Nat → Fields → Prop} {obj : List (Bytes × CVal)} {f : Fld} {v : Val}

theorem fits_label (h : LabelFld f) (hv : ∃ s, v = .str s) : (LabelFld f → ∃ s, v = .str s) ∧ (FreeFld obj f → PlainGood pe ext f v) ∧
    (SpecFld obj f → BlocksFit envI ext refI own good f.ty (GoMap.get? obj f.name) v) ∧ (AnyFld obj f → AnyGood S pe ext f v) :=
  ⟨fun _ => hv, fun h' => absurd h.what h'.1.decodes.notLabel, fun h' => absurd h.what h'.decodes.notLabel,
    fun h' => absurd h.what h'.decodes.notLabel⟩

theorem fits_plain (h : FreeFld obj f) (hv : PlainGood pe ext f v) : (LabelFld f → ∃ s, v = .str s) ∧ (FreeFld obj f → PlainGood pe ext f v) ∧
    (SpecFld obj f → BlocksFit envI ext refI own good f.ty (GoMap.get? obj f.name) v) ∧ (AnyFld obj f → AnyGood S pe ext f v) :=
  ⟨fun h' => absurd h'.what h.1.decodes.notLabel, fun _ => hv, fun h' => (by
    have := h.isO.2.2.1
    rw [h'.isO.2.2.1] at this
    exact absurd this (by decide)), fun h' => by
    have := h.isO.2.2.2
    rw [h'.isO.2.2.2] at this
    exact absurd this (by decide)⟩

theorem fits_block (h : SpecFld obj f) (hv : BlocksFit envI ext refI own good f.ty (GoMap.get? obj f.name) v) :
    (LabelFld f → ∃ s, v = .str s) ∧ (FreeFld obj f → PlainGood pe ext f v) ∧
    (SpecFld obj f → BlocksFit envI ext refI own good f.ty (GoMap.get? obj f.name) v) ∧ (AnyFld obj f → AnyGood S pe ext f v) :=
  ⟨fun h' => absurd h'.what h.decodes.notLabel, fun h' => (by
    have := h'.isO.2.2.1
    rw [h.isO.2.2.1] at this
    exact absurd this (by decide)), fun _ => hv, fun h' => by
    have := h.isO.2.2.2
    rw [h'.isO.2.2.2] at this
    exact absurd this (by decide)⟩

end

theorem tagsI {f : Fld} (h : f ∈ [fName, fShapes, fNamed, fMain, fId, fVal]) : IsIdent f.tag ∧ (LabelFld f → f.what = b "label") := by
  have hid : f ≠ fId → ¬ LabelFld f := by
    intro hne hl
    simp only [List.mem_cons, List.not_mem_nil, or_false] at h
    rcases h with rfl | rfl | rfl | rfl | rfl | rfl
    · exact (plain_of (by simp)).decodes.notLabel hl.what
    · exact (specI_of (by simp)).notLabel hl.what
    · exact (specI_of (by simp)).notLabel hl.what
    · exact (specI_of (by simp)).notLabel hl.what
    · exact hne rfl
    · exact (plain_of (by simp)).decodes.notLabel hl.what
  refine ⟨?_, fun hl => ?_⟩
  · simp only [List.mem_cons, List.not_mem_nil, or_false] at h
    rcases h with rfl | rfl | rfl | rfl | rfl | rfl
    · simp only [show fName.tag = b "name" from rfl]; decide +kernel
    · simp only [show fShapes.tag = b "shapes" from rfl]; decide +kernel
    · simp only [show fNamed.tag = b "named" from rfl]; decide +kernel
    · simp only [show fMain.tag = b "main" from rfl]; decide +kernel
    · simp only [show fId.tag = b "id" from rfl]; decide +kernel
    · simp only [show fVal.tag = b "val" from rfl]; decide +kernel
  · by_cases he : f = fId
    · subst he; rfl
    · exact absurd hl (hid he)

/-- A text of one byte that is written as it is. -/
structure Short (s : String) : Prop where
  one : ∃ c, b s = [c] ∧ safeByte c = true

theorem Short.safe {s} (h : Short s) : SafeStr (b s) := by
  obtain ⟨c, e, h⟩ := h
  rw [e]; exact (safe_byte h).1

theorem Short.lines {s} (h : Short s) : ∀ k, indentLines (indent k) (b s) = b s := by
  obtain ⟨c, e, h⟩ := h
  rw [e]; exact (safe_byte h).2

theorem Short.ne {s} (h : Short s) : b s ≠ [] := by
  obtain ⟨c, e, h⟩ := h
  rw [e]; simp

theorem fitsVal {v : String} (h : Short v) : PlainGood pe ext fVal (.str (b v)) := good_str rfl h.safe h.ne h.lines

theorem fits1 (n : Nat) (i : String) {v : String} (h : Short v) : Fits S envI 0 pe ext refI (n + 1) [] 1 [(b "Id", .str (b i)), (b "Val", .str (b v))] := by
  refine ⟨orderly1, ⟨Nat.zero_le _, by simp [embeddedIn]⟩, rfl, fun f hf => ?_, fun f hf => ?_⟩
  · have hf' : f = fId ∨ f = fVal := by simpa [envI, Env.flat, flatten] using hf
    exact tagsI (by rcases hf' with rfl | rfl <;> simp)
  · have hf' : f = fId ∨ f = fVal := by simpa [envI, Env.flat, flatten] using hf
    rcases hf' with rfl | rfl
    · exact ⟨_, rfl, fits_label label_fId ⟨_, rfl⟩⟩
    · exact ⟨_, rfl, fits_plain ⟨plain_of (by simp), rfl⟩ (fitsVal h)⟩

theorem fits2 (n : Nat) {v : String} (h : Short v) : Fits S envI 0 pe ext refI (n + 1) [] 2 [(b "Val", .str (b v))] := by
  refine ⟨orderly2, ⟨Nat.zero_le _, by simp [embeddedIn]⟩, rfl, fun f hf => ?_, fun f hf => ?_⟩
  · have hf' : f = fVal := by simpa [envI, Env.flat, flatten] using hf
    exact tagsI (by rw [hf']; simp)
  · have hf' : f = fVal := by simpa [envI, Env.flat, flatten] using hf
    subst hf'
    exact ⟨_, rfl, fits_plain ⟨plain_of (by simp), rfl⟩ (fitsVal h)⟩

/-- The labels of a struct with the label field `Id`, outside and inside maps. -/
theorem writtenI {d : StructDecl} {i : String} {x : Bytes} {v : Val} (hi : Short i) (hd : d.fields.filter (fun f => lower f.what = b "label") = [fId]) :
    writtenLabels d [(b "Id", .str (b i)), (x, v)] none = [b i] ∧ writtenLabels d [(b "Id", .str (b i)), (x, v)] (some (b i)) = [] := by
  have : ownLabels d [(b "Id", .str (b i)), (x, v)] = [b i] := by
    rw [ownLabels, hd]
    rfl
  simp only [writtenLabels, this]
  simp [hi.ne]

/-- What `Fits` asks for of the structs in the fields. -/
abbrev goodI (S : Bytes → Expr → Prop) (n : Nat) : Bool → List (Bytes × CVal) → List Bytes → Nat → Fields → Prop :=
  fun _ obj labels c fs => Fits S envI 0 pe ext refI n obj c fs ∧ LabelsAre (envI.flat 0 c) fs labels

theorem fitBlock1 {n : Nat} {ty : Ty} {spec : CVal} {ok : List Bytes → Nat → Prop} {k : Nat} {i v : String} {keys : List Bytes} (hk : keys = [] ∨ keys = [b i])
    (hi : Short i) (hv : Short v) (h : Given spec ty k [b i] (.mk (b "Item") [])) (hok : ok [b i] 1) :
    BlockFits envI ext refI (fun _ c => writtenLabels (envI.flat 0 c)) (goodI S (n + 1)) ty (.iface 0) (some spec) ok k keys (one i v) := by
  have hw := writtenI (d := envI.flat 0 1) (x := b "Val") (v := .str (b v)) hi rfl
  have he : keys ++ writtenLabels (envI.flat 0 1) [(b "Id", .str (b i)), (b "Val", .str (b v))] keys.head? = [b i] := by
    rcases hk with rfl | rfl
    · exact hw.1
    · simp only [List.head?_cons, hw.2, List.append_nil]
  refine ⟨1, _, [], _, ?_, ?_, .iface rfl, ?_, fun _ _ => ⟨rfl, fits1 n i hv, ?_⟩⟩
  · rw [he]; exact .given h rfl
  · rw [he]; exact hok
  · rw [he]; intro l hl; rw [List.mem_singleton.1 hl]; exact hi.safe
  · rw [he]; exact labelsI1 i _

theorem fitBlock2 {n : Nat} {ty : Ty} {spec : CVal} {ok : List Bytes → Nat → Prop} {k : Nat} {v : String} {keys : List Bytes}
    (hk : ∀ l ∈ keys, SafeStr l) (hv : Short v) (h : Given spec ty k keys (.mk (b "Other") [])) (hok : ok keys 2) :
    BlockFits envI ext refI (fun _ c => writtenLabels (envI.flat 0 c)) (goodI S (n + 1)) ty (.iface 0) (some spec) ok k keys (two v) := by
  have he : keys ++ writtenLabels (envI.flat 0 2) [(b "Val", .str (b v))] keys.head? = keys := by
    rw [show writtenLabels (envI.flat 0 2) [(b "Val", .str (b v))] keys.head? = [] from rfl, List.append_nil]
  refine ⟨2, _, [], _, ?_, ?_, .iface rfl, ?_, fun _ _ => ⟨rfl, fits2 n hv, labelsI2 _ _⟩⟩
  · rw [he]; exact .given h rfl
  · rw [he]; exact hok
  · rw [he]; exact hk

theorem fitBlock3 {n : Nat} {ty : Ty} {spec : CVal} {s : CVal} {ok : List Bytes → Nat → Prop} {k : Nat} {v : Val} {i : String} (hi : Short i)
    (h : Given spec ty k [b i] (.mk (b "Frame") [(b "Main", s)])) (hok : ok [b i] 3)
    (hv : BlockFits envI ext refI (fun _ c => writtenLabels (envI.flat 0 c)) (goodI S n) (.iface 0) (.iface 0) (some s) (fun _ _ => True) 0 [] v) :
    BlockFits envI ext refI (fun _ c => writtenLabels (envI.flat 0 c)) (goodI S (n + 1)) ty (.iface 0) (some spec) ok k [] (.ref 3 [(b "Id", .str (b i)), (b "Main", v)]) := by
  have he : [] ++ writtenLabels (envI.flat 0 3) [(b "Id", .str (b i)), (b "Main", v)] ([] : List Bytes).head? = [b i] := (writtenI hi rfl).1
  refine ⟨3, _, [(b "Main", s)], _, ?_, ?_, .iface rfl, ?_, fun _ _ => ⟨rfl, ?_, ?_⟩⟩
  · rw [he]; exact .given h rfl
  · rw [he]; exact hok
  · rw [he]; intro l hl; rw [List.mem_singleton.1 hl]; exact hi.safe
  · refine ⟨orderly3 s, ⟨Nat.zero_le _, by simp [embeddedIn]⟩, rfl, fun f hf => ?_, fun f hf => ?_⟩
    · have hf' : f = fId ∨ f = fMain := by simpa [envI, Env.flat, flatten] using hf
      exact tagsI (by rcases hf' with rfl | rfl <;> simp)
    · have hf' : f = fId ∨ f = fMain := by simpa [envI, Env.flat, flatten] using hf
      rcases hf' with rfl | rfl
      · exact ⟨_, rfl, fits_label label_fId ⟨_, rfl⟩⟩
      · exact ⟨_, rfl, fits_block ⟨specI_of (by simp), .inl rfl⟩ (.inr hv)⟩
  · rw [he]; exact labelsI3 i _

theorem picture_fits : Fits S envI 0 pe ext refI 3 specI 0 pictureStruct := by
  have hs : ∀ {f}, f ∈ [fShapes, fNamed, fMain] → SpecFld specI f := by
    intro f hf
    refine ⟨specI_of hf, .inl ?_⟩
    simp only [List.mem_cons, List.not_mem_nil, or_false] at hf
    rcases hf with rfl | rfl | rfl <;> rfl
  refine ⟨orderly0, ⟨Nat.zero_le _, by simp [embeddedIn]⟩, rfl, fun f hf => ?_, fun f hf => ?_⟩
  · have hf' : f = fName ∨ f = fShapes ∨ f = fNamed ∨ f = fMain := by simpa [envI, Env.flat, flatten] using hf
    exact tagsI (by rcases hf' with rfl | rfl | rfl | rfl <;> simp)
  · have hf' : f = fName ∨ f = fShapes ∨ f = fNamed ∨ f = fMain := by simpa [envI, Env.flat, flatten] using hf
    rcases hf' with rfl | rfl | rfl | rfl
    · have hn : Short "n" := ⟨110, rfl, by decide⟩
      exact ⟨_, rfl, fits_plain ⟨plain_of (by simp), rfl⟩ (good_str rfl hn.safe hn.ne hn.lines)⟩
    · refine ⟨_, rfl, fits_block (hs (by simp)) (.inr ⟨_, by simp, rfl, fun x hx => ?_⟩)⟩
      simp only [List.zipIdx_cons, List.zipIdx_nil, List.mem_cons, List.not_mem_nil, or_false] at hx
      rcases hx with rfl | rfl | rfl
      · exact ⟨id, fitBlock1 (.inl rfl) ⟨105, rfl, by decide⟩ ⟨49, rfl, by decide⟩ (.nth rfl) trivial⟩
      · exact ⟨id, fitBlock3 ⟨102, rfl, by decide⟩ (.nth rfl) trivial
          (fitBlock1 (.inl rfl) ⟨106, rfl, by decide⟩ ⟨51, rfl, by decide⟩ (.single (by simp) (by simp)) trivial)⟩
      · exact ⟨id, fitBlock2 (by simp) ⟨53, rfl, by decide⟩ (.nth rfl) trivial⟩
    · refine ⟨_, rfl, fits_block (hs (by simp)) (.inr ⟨_, by simp, rfl, ?_, fun x hx => ?_⟩)⟩
      · refine .cons ?_ (.cons (by simp) .nil)
        intro y hy
        rw [List.mem_singleton.1 hy]
        decide +kernel
      · simp only [List.mem_cons, List.not_mem_nil, or_false] at hx
        rcases hx with rfl | rfl
        · exact fitBlock1 (.inr rfl) ⟨97, rfl, by decide⟩ ⟨54, rfl, by decide⟩ (.key (by rfl)) trivial
        · refine fitBlock2 (fun l hl => ?_) ⟨50, rfl, by decide⟩ (.key (by rfl)) trivial
          rw [List.mem_singleton.1 hl]
          exact Short.safe (s := "k") ⟨107, rfl, by decide⟩
    · refine ⟨_, rfl, fits_block (hs (by simp)) (.inr ?_)⟩
      exact fitBlock3 ⟨103, rfl, by decide⟩ (.single (by simp [fMain, fld]) (by simp [fMain, fld])) trivial
        (fitBlock2 (by simp) ⟨52, rfl, by decide⟩ (.single (by simp) (by simp)) trivial)

end Demo

-- `C107_partial` for a struct with a slice and a map of interfaces, and interfaces in interfaces.
example : ReadsBackAs AnySrc Demo.envI Demo.pe Demo.ext 2 (.ref 0 Demo.pictureStruct) Demo.specI [] ⟨[], Demo.refI⟩ none 0 Demo.pictureStruct :=
  C107_partial (fun _ _ => .refl _) (fun _ _ => .refl _) (fun _ _ => .refl _) Demo.zeroOkI ⟨by simp, by simp, by simp⟩ (by simp) Demo.canonicalI
    (.inl rfl) Demo.picture_fits ⟨fun _ => rfl, fun h => absurd rfl h⟩ (by omega)

set_option maxRecDepth 20000 in
-- What is written.
example : marshalVal Demo.envI Demo.pe (.ref 0 Demo.pictureStruct) = .ok (b
"  name = \"n\"
  shapes \"i\" {
    val = \"1\"
  }
  shapes \"f\" {
    main \"j\" {
      val = \"3\"
    }
  }
  shapes {
    val = \"5\"
  }
  named \"a\" {
    val = \"6\"
  }
  named \"k\" {
    val = \"2\"
  }
  main \"g\" {
    main {
      val = \"4\"
    }
  }") := by rfl

namespace Demo

/-- Three shapes, the second of them nil, and the classes. -/
def gap : Fields := [(b "Name", .str (b "n")), (b "Shapes", .slice [two "1", .leaf 0, one "i" "2"]), (b "Named", .leaf 0), (b "Main", .leaf 0)]
def gapSpec : List (Bytes × CVal) :=
  [(b "Shapes", .list [.mk (b "Other") [], .mk (b "Other") [], .mk (b "Item") []]), (b "Named", .map [(b "a", .mk (b "Item") [])]),
   (b "Main", .single (.mk (b "Item") []))]

/-- What is read back: without the nil, and with another class. -/
def gapRead : Fields := [(b "Name", .str (b "n")), (b "Shapes", .slice [two "1", two "2"]), (b "Named", .leaf 0), (b "Main", .leaf 0)]

end Demo

set_option maxRecDepth 20000 in
/-- **C107 is violated**: nothing is written for a nil in a slice, so that the next element gets its class. -/
theorem C107_violated_nil : ∃ text doc, marshalVal Demo.envI Demo.pe (.ref 0 Demo.gap) = .ok text ∧ Hcl.parseConfig text = .ok doc ∧
    (unmarshalSpec Demo.envI Demo.ext 2 (some (ofDoc doc)) 0 (newFields Demo.envI Demo.ext 0) (some Demo.gapSpec) ⟨[], Demo.refI⟩ none []).outcome = .ok () ∧
    (unmarshalSpec Demo.envI Demo.ext 2 (some (ofDoc doc)) 0 (newFields Demo.envI Demo.ext 0) (some Demo.gapSpec) ⟨[], Demo.refI⟩ none []).target = Demo.gapRead ∧
    Demo.gapRead ≠ Demo.gap := by
  refine ⟨b "  name = \"n\"\n  shapes {\n    val = \"1\"\n  }\n  shapes \"i\" {\n    val = \"2\"\n  }",
    .mk [(b "name", .str (b "n"))] [(b "shapes", [], .mk [(b "val", .str (b "1"))] []), (b "shapes", [b "i"], .mk [(b "val", .str (b "2"))] [])],
    by rfl, by rfl, by rfl, by rfl, ?_⟩
  intro h
  have := congrArg (fun fs => (GoMap.get? fs (b "Shapes")).map Val.len) h
  revert this
  decide +kernel

end Verif.HclS
