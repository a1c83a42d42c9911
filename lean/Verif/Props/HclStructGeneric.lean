import Verif.Lemmas.HclStructGeneric
import Verif.Props.HclStructIfacePrint
import Verif.Check.HclGenericDemo
import Verif.Lemmas.HclEq
/-!
# Fields of structs that hold generic data
-/
set_option linter.unusedSimpArgs false
set_option linter.ambiguousOpen false

namespace Verif.HclS
open Verif.Tree (Heap)
open Hcl (Cty Expr GV)
open Det (Cls CVal ltB)

/-- **C113: attributes.** A field of type `[]any` or `map[string]any` without specification gets from its attribute what `decodeSlice` or
`decodeMap` makes of the text of the attribute; the other fields are as C106 says. -/
theorem C113_attribute {env : Env} {ext : Ext} {hx : Hcl.Ext} {emb n m c : Nat} {body : Body} {fs : Fields} {obj : List (Bytes × CVal)}
    {labels : List Bytes} {st : St} {root : Option Nat} {f : Fld} {a : Attr} (hord : ∀ p l, (ext.ord p l).Perm l) (hz : ext.zero .str = .str [])
    (hinv : Tree.Inv st.heap) (hroot : ∀ r, root = some r → r < st.heap.length) (hcan : Canonical env ext st.ref) (hd : GenericDec ext hx)
    (hs : Displays env emb ext st.ref n obj body c fs) (hl : LabelsAre (env.flat emb c) fs labels) (hn : n + emb ≤ m + 1)
    (hf : f ∈ (env.flat emb c).fields) (hg : AnyFld obj f) (ha : GoMap.get? body.attrs f.tag = some a) (hp : Hcl.parseX a.src = .ok a.expr) :
    let after := unmarshalSpec env ext m (some body) c (newFields env ext c) (some obj) st root labels
    after.outcome = .ok () ∧
      (∀ l, f.ty = .slice .any → Hcl.decodeSlice hx a.src = .ok l → GoMap.get? after.target f.name = some (codeList l)) ∧
      ∀ o, f.ty = .map .str .any → Hcl.decodeMap hx a.src = .ok o → GoMap.get? after.target f.name = some (code (.map o)) := by
  obtain ⟨h1, h2⟩ := C106_decodes_interfaces hord hz hinv hroot hcan hs hl hn
  obtain ⟨v, h3, h4⟩ := displays_any hs hf hg
  simp only [AnyShows, ha] at h4
  refine ⟨h1, fun l ht hdec => ?_, fun o ht hdec => ?_⟩
  · rw [h2, h3]
    split at h4
    · rename_i heq _; cases heq
      obtain ⟨h5, _, h6⟩ := h4
      rw [ht] at h6
      exact congrArg some (givesAny_unique h6 (hd.slice _ _ _ hp h5 hdec))
    · rename_i heq _; cases heq
    · rename_i heq _; cases heq
    · exact h4.elim
  · rw [h2, h3]
    split at h4
    · rename_i heq _; cases heq
      obtain ⟨h5, _, h6⟩ := h4
      rw [ht] at h6
      exact congrArg some (givesAny_unique h6 (hd.object _ _ _ hp h5 hdec))
    · rename_i heq _; cases heq
    · rename_i heq _; cases heq
    · exact h4.elim

/-- **C113: blocks.** A field of type `map[string]any` without specification gets from its only block what `decodeBody` makes of the content of the
block. -/
theorem C113_block {env : Env} {ext : Ext} {hx : Hcl.Ext} {emb n m c : Nat} {body : Body} {fs : Fields} {obj : List (Bytes × CVal)}
    {labels : List Bytes} {st : St} {root : Option Nat} {f : Fld} {blk : Body} {doc : Hcl.Body} {o : List (Bytes × GV)}
    (hord : ∀ p l, (ext.ord p l).Perm l) (hz : ext.zero .str = .str [])
    (hinv : Tree.Inv st.heap) (hroot : ∀ r, root = some r → r < st.heap.length) (hcan : Canonical env ext st.ref) (hd : GenericDec ext hx)
    (hs : Displays env emb ext st.ref n obj body c fs) (hl : LabelsAre (env.flat emb c) fs labels) (hn : n + emb ≤ m + 1)
    (hf : f ∈ (env.flat emb c).fields) (hg : AnyFld obj f) (ht : f.ty = .map .str .any)
    (hb : blocksOf body f.tag = [([], blk)]) (hr : Reads SourceOf doc blk) (hlit : LitBody doc) (hne : doc ≠ .mk [] [])
    (hdec : Hcl.decodeBody hx [] doc = .ok o) :
    let after := unmarshalSpec env ext m (some body) c (newFields env ext c) (some obj) st root labels
    after.outcome = .ok () ∧ GoMap.get? after.target f.name = some (code (.map o)) := by
  obtain ⟨h1, h2⟩ := C106_decodes_interfaces hord hz hinv hroot hcan hs hl hn
  obtain ⟨v, h3, h4⟩ := displays_any hs hf hg
  simp only [AnyShows, hb] at h4
  refine ⟨h1, ?_⟩
  rw [h2, h3]
  split at h4
  · rename_i _ heq; cases heq
  · rename_i _ heq; cases heq
    rw [ht] at h4
    exact congrArg some (givesAny_unique h4 (hd.block _ _ _ hr hlit hne hdec))
  · rename_i _ heq; cases heq
  · exact h4.elim

/-- **C113: absent.** A generic field that the document does not mention is zero. -/
theorem C113_absent {env : Env} {ext : Ext} {emb n m c : Nat} {body : Body} {fs : Fields} {obj : List (Bytes × CVal)}
    {labels : List Bytes} {st : St} {root : Option Nat} {f : Fld} (hord : ∀ p l, (ext.ord p l).Perm l) (hz : ext.zero .str = .str [])
    (hinv : Tree.Inv st.heap) (hroot : ∀ r, root = some r → r < st.heap.length) (hcan : Canonical env ext st.ref)
    (hs : Displays env emb ext st.ref n obj body c fs) (hl : LabelsAre (env.flat emb c) fs labels) (hn : n + emb ≤ m + 1)
    (hf : f ∈ (env.flat emb c).fields) (hg : AnyFld obj f) (ha : GoMap.get? body.attrs f.tag = none) (hb : blocksOf body f.tag = []) :
    let after := unmarshalSpec env ext m (some body) c (newFields env ext c) (some obj) st root labels
    after.outcome = .ok () ∧ GoMap.get? after.target f.name = some (ext.zero f.ty) := by
  obtain ⟨h1, h2⟩ := C106_decodes_interfaces hord hz hinv hroot hcan hs hl hn
  obtain ⟨v, h3, h4⟩ := displays_any hs hf hg
  simp only [AnyShows, ha, hb] at h4
  exact ⟨h1, by rw [h2, h3, h4]⟩

/-- **C114, for data that comes back.** A struct with generic fields, whose data has the text of HCL values and does not change when it is decoded,
is written as a document; `UnmarshalSpec` of this document gives the struct, whatever the order in which the maps were written.  Missing for the full
claim: data as in the counterexamples here and for C47, C48 and C107. -/
theorem C114_partial {env : Env} {pe : PExt} {ext : Ext} {hx : Hcl.Ext} {emb n m c : Nat} {v : Val} {fs : Fields} {obj : List (Bytes × CVal)}
    {labels : List Bytes} {st : St} {root : Option Nat}
    (hord : ∀ p l, (ext.ord p l).Perm l) (hpo : ∀ p l, (pe.ord p l).Perm l) (hpo2 : ∀ p l, (pe.ord2 p l).Perm l)
    (hxo : ∀ p l, (hx.ord p l).Perm l) (hd : GenericDec ext hx) (he : GenericEnc pe)
    (hz : ZeroOkI ext) (hinv : Tree.Inv st.heap) (hroot : ∀ r, root = some r → r < st.heap.length) (hcan : Canonical env ext st.ref)
    (hv : v = .ref c fs ∨ v = .inst c fs ∧ ¬ v.Zero) (hw : FitsData hx.nfc env emb pe ext st.ref n obj c fs)
    (hl : LabelsAre (env.flat emb c) fs labels) (hn : n + emb ≤ m + 1) :
    ReadsBackAs SourceOf env pe ext m v obj labels st root c fs :=
  C107_partial hord hpo hpo2 hz hinv hroot hcan hv (fits_data hxo hd he n obj c fs hw) hl hn

/-- **C114: nothing is lost.** Two such structs that are written as the same text are equal. -/
theorem C114_injective {env : Env} {pe : PExt} {ext : Ext} {hx : Hcl.Ext} {emb n n' c : Nat} {fs fs' : Fields} {obj : List (Bytes × CVal)}
    {labels : List Bytes} {ref : GoMap Bytes Tmpl} (hord : ∀ p l, (ext.ord p l).Perm l) (hpo : ∀ p l, (pe.ord p l).Perm l)
    (hpo2 : ∀ p l, (pe.ord2 p l).Perm l) (hxo : ∀ p l, (hx.ord p l).Perm l) (hd : GenericDec ext hx) (he : GenericEnc pe)
    (hz : ZeroOkI ext) (hcan : Canonical env ext ref)
    (hw : FitsData hx.nfc env emb pe ext ref n obj c fs) (hl : LabelsAre (env.flat emb c) fs labels)
    (hw' : FitsData hx.nfc env emb pe ext ref n' obj c fs') (hl' : LabelsAre (env.flat emb c) fs' labels)
    (heq : marshalVal env pe (.ref c fs) = marshalVal env pe (.ref c fs')) : fs = fs' :=
  C107_injective hord hpo hpo2 hz hcan source_exists (fits_data hxo hd he n obj c fs hw) hl (fits_data hxo hd he n' obj c fs' hw') hl' heq

/-! ## Examples -/

namespace GenDemo

mutual
theorem uncode_code : ∀ v : GV, uncode (code v) = some v
  | .nil => by simp [code, uncode]
  | .str s => by simp [code, uncode]
  | .bool v => by cases v <;> simp [code, leafNo, uncode]
  | .nilList => by simp [code, leafNo, uncode]
  | .nilMap => by simp [code, leafNo, uncode]
  | .int n => by
    simp only [code, leafNo, show 5 + 2 * Encodable.encode n = 2 * Encodable.encode n + 5 by omega, uncode]
    rw [if_pos (by omega), Nat.mul_div_cancel_left _ (by omega), Encodable.encodek]; rfl
  | .flt q => by
    simp only [code, leafNo, show 6 + 2 * Encodable.encode q = 2 * Encodable.encode q + 1 + 5 by omega, uncode]
    rw [if_neg (by omega), show (2 * Encodable.encode q + 1) / 2 = Encodable.encode q by omega, Encodable.encodek]; rfl
  | .list l => by simp [code, uncode, uncodeL_code l]
  | .map m => by simp [code, uncode, uncodeM_code m]
theorem uncodeL_code : ∀ l : List GV, uncodeL (codeL l) = some l
  | [] => rfl
  | v :: l => by simp [codeL, uncodeL, uncode_code v, uncodeL_code l]
theorem uncodeM_code : ∀ m : List (Bytes × GV), uncodeM (codeM m) = some m
  | [] => rfl
  | (k, v) :: m => by simp [codeM, uncodeM, uncode_code v, uncodeM_code m]
end

theorem genericEnc : GenericEnc pe := by
  intro v k
  refine ⟨v, .same, fun t ht => ?_⟩
  simp only [pe, uncode_code, ht]

mutual
theorem toDoc_reads {S} {doc : Hcl.Body} {body : Body} : Reads S doc body → toDoc body = doc
  | .mk h h' => by
    simp only [toDoc, toBlocks_reads h']
    congr 1
    induction h with
    | nil => rfl
    | @cons a a' as as' h1 _ ih =>
      obtain ⟨k, a'⟩ := a'
      obtain ⟨k', e⟩ := a
      obtain ⟨rfl, rfl, _⟩ := h1
      simp only [toAttrs, ih]
theorem toBlocks_reads {S} {bs bs'} : ReadsL S bs bs' → toBlocks bs' = bs
  | .nil => rfl
  | .cons h h' => by simp only [toBlocks, toDoc_reads h, toBlocks_reads h']
end

theorem givesAny_const {α : Type} {f : α → Val} {o : Hcl.Out α} {v : α} (h : o = .ok v) : GivesAny (fun h _ => give h f o) (f v) :=
  fun g _ hi _ => ⟨g, by simp [h, give], hi, .refl _⟩

theorem genericDec : GenericDec ext hx where
  slice _ _ _ _ _ h := givesAny_const h
  object _ _ _ _ _ h := givesAny_const (f := fun m => code (.map m)) h
  block doc body m h _ hne hd := by
    have e := toDoc_reads h
    have : (fun g n => ext.dynBlock false g n body) = fun g (_ : Nat) => give g (fun m => code (.map m)) (Hcl.decodeBody hx [] doc) := by
      funext g n
      simp only [ext]
      rw [← e]
      split
      · rename_i h; exact absurd h (by decide)
      · rename_i h
        split
        · exact absurd e.symm hne
        · rfl
    rw [this]
    exact givesAny_const hd
  empty _ _ := rfl

theorem zeroOkI : ZeroOkI ext := ⟨⟨rfl, fun _ => rfl, fun _ => rfl, fun _ _ => rfl⟩, rfl, fun _ => rfl⟩

theorem canonical : Canonical env ext [] := by
  refine canonical_of (fun c c' h => ?_) (fun c => ?_) (fun _ => rfl) (by simp)
  · have h6 : ∀ n, ((env.struct (n + 1)).str).take 6 = b "main.T" := by
      intro n
      rw [show (env.struct (n + 1)).str = b "main.T" ++ List.replicate n 120 from rfl, List.take_append_of_le_length (by decide +kernel)]
      decide +kernel
    have h0 : ((env.struct 0).str).take 6 ≠ b "main.T" := by decide +kernel
    cases c with
    | zero =>
      cases c' with
      | zero => rfl
      | succ n => exact absurd (h ▸ h6 n) h0
    | succ n =>
      cases c' with
      | zero => exact absurd (h ▸ h6 n) h0
      | succ n' =>
        have := congrArg List.length h
        simp only [env, List.length_append, List.length_replicate] at this
        omega
  · cases c <;> exact ⟨_, rfl⟩

theorem name_fld : FreeFld [] fName := ⟨Demo.plain_of (f := Demo.fName) (by simp), rfl⟩

theorem tags_fld : AnyFld [] fTags := ⟨⟨rfl, by decide +kernel, by decide +kernel, by decide +kernel⟩, .inl rfl, rfl⟩

theorem conf_fld : AnyFld [] fConf := ⟨⟨rfl, by decide +kernel, by decide +kernel, by decide +kernel⟩, .inr rfl, rfl⟩

theorem fields_env {f : Fld} (hf : f ∈ (env.flat 0 0).fields) : f = fName ∨ f = fTags ∨ f = fConf := by
  simpa [env, Env.flat, flatten] using hf

theorem orderly : Orderly env 0 [] 0 where
  kinds := by
    intro f hf
    rcases fields_env hf with rfl | rfl | rfl
    · exact .inr (.inl name_fld)
    · exact .inr (.inr (.inr tags_fld))
    · exact .inr (.inr (.inr conf_fld))
  names := by decide +kernel
  tags := by decide +kernel
  promoted := rfl
  apart := by simp [embeddedIn]
  free := fun _ _ => rfl

/-- Generic data: a list with a map inside, and a map with a list and maps inside. -/
def tags : List GV := [.str (b "a"), .int 2, .map [(b "k", .bool true)]]
def conf : List (Bytes × GV) :=
  [(b "l", .list [.int (-1), .list [.str (b "x")]]), (b "n", .nil), (b "p", .map [(b "x", .map [(b "n", .int 80)]), (b "y", .map [(b "n", .int 81)])]),
   (b "u", .bool false)]

def full : Fields := [(b "Name", .str (b "n")), (b "Tags", code (.list tags)), (b "Conf", code (.map conf))]

theorem int64 (n : Int) (h1 : -(2 ^ 63) ≤ n) (h2 : n < 2 ^ 63) : Hcl.IsInt64 n := ⟨n, rfl, h1, h2⟩

theorem tags_back : AnyBack id fTags.ty (code (.list tags)) := by
  refine .inr ⟨tags, rfl, by simp [tags], ?_, ?_, by simp [tags, Hcl.canonL, Hcl.GV.canon, Hcl.canonM, Det.insertK]⟩
  · simp only [tags, Hcl.okElems, Hcl.okElem, Hcl.okObj, Hcl.okMember]
    exact ⟨Demo.Short.safe (s := "a") ⟨97, rfl, by decide⟩, trivial, ⟨⟨⟨by decide, by simp⟩, by decide⟩, trivial, trivial⟩, trivial⟩
  · simp only [tags, Hcl.exactL, Hcl.exactM, Hcl.exact, Hcl.NonZero]
    exact ⟨by decide, rfl, by decide, int64 _ (by decide) (by decide), trivial, ⟨⟨trivial, trivial⟩, by decide⟩, trivial⟩

theorem conf_back : AnyBack id fConf.ty (code (.map conf)) := by
  have hx : Hcl.SafeStr (b "x") := Demo.Short.safe ⟨120, rfl, by decide⟩
  have hy : Hcl.SafeStr (b "y") := Demo.Short.safe ⟨121, rfl, by decide⟩
  refine .inr ⟨conf, rfl, by simp [conf], ?_, ?_, ?_, ?_⟩
  · simp only [conf, Hcl.okBody, Hcl.okLine, Hcl.okElems, Hcl.okElem, Hcl.okLabels]
    refine ⟨⟨⟨by decide, by simp⟩, by decide, by decide⟩, ⟨trivial, ⟨hx, trivial⟩, trivial⟩, ⟨⟨by decide, by simp⟩, by decide, by decide⟩, trivial,
      ⟨⟨by decide, by simp⟩, by decide, by decide⟩, ⟨fun _ => ⟨hx, ⟨fun h => absurd h (by decide), fun _ => ?_⟩, hy,
        ⟨fun h => absurd h (by decide), fun _ => ?_⟩, trivial⟩, fun h => absurd h (by decide)⟩,
      ⟨⟨by decide, by simp⟩, by decide, by decide⟩, trivial, trivial⟩ <;>
    exact ⟨⟨⟨by decide, by simp⟩, by decide, by decide⟩, trivial, trivial⟩
  · simp only [conf, Hcl.exactL, Hcl.exactM, Hcl.exact, Hcl.NonZero]
    exact ⟨⟨by decide, int64 _ (by decide) (by decide), trivial, ⟨by decide, rfl, trivial⟩, trivial⟩, trivial,
      ⟨⟨⟨⟨int64 _ (by decide) (by decide), trivial⟩, by decide⟩, ⟨⟨int64 _ (by decide) (by decide), trivial⟩, by decide⟩, trivial⟩, by decide⟩, trivial, trivial⟩
  · simp only [conf, Hcl.uniformM, Hcl.uniform, Hcl.uniformL]
    exact ⟨trivial, trivial, ⟨fun _ => ⟨⟨⟨fun h => absurd h (by decide), fun _ => ⟨trivial, trivial⟩⟩,
      ⟨fun h => absurd h (by decide), fun _ => ⟨trivial, trivial⟩⟩, trivial⟩, .inr (by decide)⟩, fun h => absurd h (by decide)⟩, trivial, trivial⟩
  · rfl

theorem full_fits (ref : GoMap Bytes Tmpl) : FitsData hx.nfc env 0 pe ext ref 1 [] 0 full := by
  refine ⟨orderly, ⟨Nat.zero_le _, by simp [embeddedIn]⟩, rfl, fun f hf => ?_, fun f hf => ?_⟩
  · rcases fields_env hf with rfl | rfl | rfl
    · exact ⟨by simp only [show fName.tag = b "name" from rfl]; decide +kernel, fun h => absurd h.what name_fld.1.decodes.notLabel⟩
    · exact ⟨by simp only [show fTags.tag = b "tags" from rfl]; decide +kernel, fun h => absurd h.what tags_fld.decodes.notLabel⟩
    · exact ⟨by simp only [show fConf.tag = b "conf" from rfl]; decide +kernel, fun h => absurd h.what conf_fld.decodes.notLabel⟩
  · have hany : ∀ {f v}, AnyFld [] f → AnyBack id f.ty v → (LabelFld f → ∃ s, v = .str s) ∧ (FreeFld [] f → PlainGood pe ext f v) ∧
        (SpecFld [] f → BlocksFit env ext ref (fun _ c => writtenLabels (env.flat 0 c))
          (fun _ obj labels c fs => FitsData hx.nfc env 0 pe ext ref 0 obj c fs ∧ LabelsAre (env.flat 0 c) fs labels) f.ty (GoMap.get? [] f.name) v) ∧
        (AnyFld [] f → AnyBack hx.nfc f.ty v) := by
      intro f v h hv
      refine ⟨fun h' => absurd h'.what h.decodes.notLabel, fun h' => absurd h (not_plain_any h'.1), fun h' => ?_, fun _ => hv⟩
      exact absurd h (not_block_any ⟨h'.decodes, h'.ty.resolve_left (by simp [GoMap.get?])⟩)
    rcases fields_env hf with rfl | rfl | rfl
    · have hn : Demo.Short "n" := ⟨110, rfl, by decide⟩
      refine ⟨_, rfl, fun h => absurd h.what name_fld.1.decodes.notLabel, fun _ => ?_,
        fun h => absurd (⟨h.decodes, h.ty.resolve_left (by simp [GoMap.get?])⟩ : BlockFld fName) (not_plain_block name_fld.1), fun h => absurd h (not_plain_any name_fld.1)⟩
      exact Demo.good_str rfl hn.safe hn.ne hn.lines
    · exact ⟨_, rfl, hany tags_fld tags_back⟩
    · exact ⟨_, rfl, hany conf_fld conf_back⟩

/-- A document with an attribute for the list and a block for the map. -/
def doc : Body := .mk [(b "tags", ⟨.tuple [.num 1, .str (b "x")], b " [1, \"x\"]"⟩)] [(b "conf", [], .mk [(b "a", ⟨.str (b "v"), b " \"v\""⟩)] [])]
def docStruct : Fields := [(b "Name", .str []), (b "Tags", code (.list [.int 1, .str (b "x")])), (b "Conf", code (.map [(b "a", .str (b "v"))]))]

/-- The same with an object for the map. -/
def doc2 : Body := .mk [(b "conf", ⟨.object [(.ident (b "a"), .str (b "v"))], b " { a = \"v\" }"⟩)] []
def doc2Struct : Fields := [(b "Name", .str []), (b "Tags", .leaf 0), (b "Conf", code (.map [(b "a", .str (b "v"))]))]

theorem shows_of {ref : GoMap Bytes Tmpl} {shows} {body : Body} {fs : Fields} {f : Fld} {v : Val} (hg : GoMap.get? fs f.name = some v)
    (h : FreeFld [] f ∧ AttrShows ext body f v ∨ AnyFld [] f ∧ AnyShows ext body f v) :
    ∃ v, GoMap.get? fs f.name = some v ∧ FieldDisplays env ext ref shows [] body f v := by
  rcases h with ⟨h, hv⟩ | ⟨h, hv⟩
  · exact ⟨v, hg, fun h' => absurd h'.what h.1.decodes.notLabel, fun _ => hv, fun h' =>
      absurd (⟨h'.decodes, h'.ty.resolve_left (by simp [GoMap.get?])⟩ : BlockFld f) (not_plain_block h.1), fun h' => absurd h' (not_plain_any h.1)⟩
  · exact ⟨v, hg, fun h' => absurd h'.what h.decodes.notLabel, fun h' => absurd h (not_plain_any h'.1), fun h' =>
      absurd h (not_block_any ⟨h'.decodes, h'.ty.resolve_left (by simp [GoMap.get?])⟩), fun _ => hv⟩

theorem doc_displays (ref : GoMap Bytes Tmpl) : Displays env 0 ext ref 1 [] doc 0 docStruct := by
  refine ⟨orderly, rfl, ?_, by decide +kernel, ?_, fun f hf => ?_⟩
  · intro a ha
    rw [List.mem_singleton.1 ha]
    exact ⟨fTags, by simp [env, Env.flat, flatten], .inr tags_fld, rfl⟩
  · intro a ha
    rw [List.mem_singleton.1 ha]
    exact ⟨fConf, by simp [env, Env.flat, flatten], .inr conf_fld, rfl⟩
  · rcases fields_env hf with rfl | rfl | rfl
    · exact shows_of rfl (.inl ⟨name_fld, (⟨.inl rfl, rfl⟩ : fName.mayLack ∧ Val.str [] = ext.zero fName.ty)⟩)
    · refine shows_of rfl (.inr ⟨tags_fld, ?_⟩)
      exact ⟨.tuple (by simp only [List.mem_cons, List.not_mem_nil, or_false]; rintro e (rfl | rfl) <;> constructor), ⟨.tuple [.num 1, .str (b "x")], rfl, by simp⟩,
        givesAny_const (f := codeList) (o := Hcl.decodeSlice hx (b " [1, \"x\"]")) (v := [.int 1, .str (b "x")]) (by decide +kernel)⟩
    · exact shows_of rfl (.inr ⟨conf_fld, givesAny_const (f := fun m => code (.map m)) (v := [(b "a", .str (b "v"))]) rfl⟩)

theorem doc2_displays (ref : GoMap Bytes Tmpl) : Displays env 0 ext ref 1 [] doc2 0 doc2Struct := by
  refine ⟨orderly, rfl, ?_, by decide +kernel, by simp [doc2, Body.blocks], fun f hf => ?_⟩
  · intro a ha
    rw [List.mem_singleton.1 ha]
    exact ⟨fConf, by simp [env, Env.flat, flatten], .inr conf_fld, rfl⟩
  · rcases fields_env hf with rfl | rfl | rfl
    · exact shows_of rfl (.inl ⟨name_fld, (⟨.inl rfl, rfl⟩ : fName.mayLack ∧ Val.str [] = ext.zero fName.ty)⟩)
    · exact shows_of rfl (.inr ⟨tags_fld, rfl⟩)
    · refine shows_of rfl (.inr ⟨conf_fld, ?_⟩)
      exact ⟨.object (by simp only [List.mem_cons, List.not_mem_nil, or_false]; rintro e rfl; constructor)
        (by simp only [List.mem_cons, List.not_mem_nil, or_false]; rintro e rfl; constructor), ⟨.object [(b "a", .str (b "v"))], rfl, by simp⟩,
        givesAny_const (f := fun m => code (.map m)) (o := Hcl.decodeMap hx (b " { a = \"v\" }")) (v := [(b "a", .str (b "v"))]) (by decide +kernel)⟩

end GenDemo

-- `C114_partial` for a struct with a list and a map.
example : ReadsBackAs SourceOf GenDemo.env GenDemo.pe GenDemo.ext 0 (.ref 0 GenDemo.full) [] [] ⟨[], []⟩ none 0 GenDemo.full :=
  C114_partial (fun _ _ => .refl _) (fun _ _ => .refl _) (fun _ _ => .refl _) (fun _ _ => .refl _) GenDemo.genericDec GenDemo.genericEnc GenDemo.zeroOkI
    ⟨by simp, by simp, by simp⟩ (by simp) GenDemo.canonical (.inl rfl) (GenDemo.full_fits _) ⟨fun _ => rfl, fun h => absurd rfl h⟩ (by omega)

set_option maxRecDepth 20000 in
-- What is written.
example : marshalVal GenDemo.env GenDemo.pe (.ref 0 GenDemo.full) = .ok (b
"  name = \"n\"
  tags = [
    \"a\",
    2,
    {
      k = true
    }
  ]
  conf {
    l = [
      -1,
      [
        \"x\"
      ]
    ]
    n = null()
    p \"x\" {
      n = 80
    }
    p \"y\" {
      n = 81
    }
    u = false
  }") := by rfl

-- `C113_attribute`, `C113_block` and `C113_absent`.
example : let after := unmarshalSpec GenDemo.env GenDemo.ext 0 (some GenDemo.doc) 0 (newFields GenDemo.env GenDemo.ext 0) (some []) ⟨[], []⟩ none []
    after.outcome = .ok () ∧ GoMap.get? after.target (b "Tags") = some (.slice [code (.int 1), .str (b "x")]) := by
  have h := C113_attribute (f := GenDemo.fTags) (fun _ _ => .refl _) rfl ⟨by simp, by simp, by simp⟩ (by simp) GenDemo.canonical GenDemo.genericDec
    (GenDemo.doc_displays _) (m := 0) (labels := []) (st := ⟨[], []⟩) (root := none) ⟨fun _ => rfl, fun h => absurd rfl h⟩ (by omega)
    (by simp [GenDemo.env, Env.flat, flatten]) GenDemo.tags_fld rfl (by decide +kernel)
  exact ⟨h.1, h.2.1 [.int 1, .str (b "x")] rfl (by decide +kernel)⟩

example : let after := unmarshalSpec GenDemo.env GenDemo.ext 0 (some GenDemo.doc2) 0 (newFields GenDemo.env GenDemo.ext 0) (some []) ⟨[], []⟩ none []
    after.outcome = .ok () ∧ GoMap.get? after.target (b "Conf") = some (code (.map [(b "a", .str (b "v"))])) := by
  have h := C113_attribute (f := GenDemo.fConf) (fun _ _ => .refl _) rfl ⟨by simp, by simp, by simp⟩ (by simp) GenDemo.canonical GenDemo.genericDec
    (GenDemo.doc2_displays _) (m := 0) (labels := []) (st := ⟨[], []⟩) (root := none) ⟨fun _ => rfl, fun h => absurd rfl h⟩ (by omega)
    (by simp [GenDemo.env, Env.flat, flatten]) GenDemo.conf_fld rfl (by decide +kernel)
  exact ⟨h.1, h.2.2 [(b "a", .str (b "v"))] rfl (by decide +kernel)⟩

example : let after := unmarshalSpec GenDemo.env GenDemo.ext 0 (some GenDemo.doc) 0 (newFields GenDemo.env GenDemo.ext 0) (some []) ⟨[], []⟩ none []
    after.outcome = .ok () ∧ GoMap.get? after.target (b "Conf") = some (code (.map [(b "a", .str (b "v"))])) :=
  C113_block (f := GenDemo.fConf) (doc := .mk [(b "a", .str (b "v"))] []) (fun _ _ => .refl _) rfl ⟨by simp, by simp, by simp⟩ (by simp) GenDemo.canonical
    GenDemo.genericDec (GenDemo.doc_displays _) (m := 0) (labels := []) (st := ⟨[], []⟩) (root := none) ⟨fun _ => rfl, fun h => absurd rfl h⟩ (by omega)
    (by simp [GenDemo.env, Env.flat, flatten]) GenDemo.conf_fld rfl rfl
    (.mk (.cons ⟨rfl, rfl, fun _ => by decide +kernel⟩ .nil) .nil) (.mk (by simpa using Lit.str) .nil) (by simp) rfl

example : let after := unmarshalSpec GenDemo.env GenDemo.ext 0 (some GenDemo.doc2) 0 (newFields GenDemo.env GenDemo.ext 0) (some []) ⟨[], []⟩ none []
    after.outcome = .ok () ∧ GoMap.get? after.target (b "Tags") = some (.leaf 0) :=
  C113_absent (f := GenDemo.fTags) (fun _ _ => .refl _) rfl ⟨by simp, by simp, by simp⟩ (by simp) GenDemo.canonical
    (GenDemo.doc2_displays _) (m := 0) (labels := []) (st := ⟨[], []⟩) (root := none) ⟨fun _ => rfl, fun h => absurd rfl h⟩ (by omega)
    (by simp [GenDemo.env, Env.flat, flatten]) GenDemo.tags_fld rfl rfl

/-! ## Counterexamples -/

/-- **C113 is violated by repeated blocks and labels.** Of several blocks for a generic field only the first is used, and the labels of a block are
lost, without error. -/
theorem C113_violated : ∃ (body body' : Body), body.blocks.length = 2 ∧ body'.blocks.length = 1 ∧ (∃ x ∈ body.blocks, x.2.1 ≠ []) ∧ (∀ x ∈ body'.blocks, x.2.1 = []) ∧
    let run := fun body => unmarshalSpec GenDemo.env GenDemo.ext 0 (some body) 0 (newFields GenDemo.env GenDemo.ext 0) (some []) ⟨[], []⟩ none []
    (run body).outcome = .ok () ∧ (run body).target = (run body').target ∧
      GoMap.get? (run body).target (b "Conf") = some (code (.map [(b "a", .str (b "v"))])) :=
  ⟨.mk [] [(b "conf", [b "x"], .mk [(b "a", ⟨.str (b "v"), []⟩)] []), (b "conf", [], .mk [(b "a", ⟨.str (b "w"), []⟩)] [])],
    .mk [] [(b "conf", [], .mk [(b "a", ⟨.str (b "v"), []⟩)] [])], rfl, rfl, ⟨_, .head _, by simp⟩, by simp [Body.blocks], rfl, rfl, rfl⟩

/-- **C114 is violated by empty maps.** An empty `map[string]any` in a field is written, and reading the text panics. -/
theorem C114_violated : ∃ text doc, marshalVal GenDemo.env GenDemo.pe (.ref 0 [(b "Name", .str []), (b "Tags", .leaf 0), (b "Conf", code (.map []))]) = .ok text ∧
    Hcl.parseConfig text = .ok doc ∧ ∀ body, Reads SourceOf doc body →
      (unmarshalSpec GenDemo.env GenDemo.ext 0 (some body) 0 (newFields GenDemo.env GenDemo.ext 0) (some []) ⟨[], []⟩ none []).outcome = .error .panic := by
  refine ⟨b "  conf {\n  }", .mk [] [(b "conf", [], .mk [] [])], rfl, rfl, fun body h => ?_⟩
  cases h with
  | mk h1 h2 =>
    cases h1
    cases h2 with
    | cons h3 h4 =>
      cases h4
      cases h3 with
      | mk h5 h6 =>
        cases h5
        cases h6
        rfl

/-- **C114 is violated by empty lists.** An empty `[]any` in a field comes back as nil. -/
theorem C114_violated_list : ∃ text doc, marshalVal GenDemo.env GenDemo.pe (.ref 0 [(b "Name", .str []), (b "Tags", code (.list [])), (b "Conf", .leaf 0)]) = .ok text ∧
    Hcl.parseConfig text = .ok doc ∧ ∀ body, Reads SourceOf doc body →
      let after := unmarshalSpec GenDemo.env GenDemo.ext 0 (some body) 0 (newFields GenDemo.env GenDemo.ext 0) (some []) ⟨[], []⟩ none []
      after.outcome = .ok () ∧ GoMap.get? after.target (b "Tags") = some (.leaf 0) := by
  refine ⟨b "  tags = []", .mk [(b "tags", .tuple [])] [], rfl, rfl, fun body h => ?_⟩
  cases h with
  | mk h1 h2 =>
    cases h2
    cases h1 with
    | @cons _ a' _ _ h3 h4 =>
      cases h4
      obtain ⟨k, e, src⟩ := a'
      obtain ⟨rfl, rfl, h5⟩ := h3
      have hp : Hcl.parseX src = .ok (.tuple []) := h5 ⟨b "[]", by decide +kernel⟩
      have hd : Displays GenDemo.env 0 GenDemo.ext [] 1 [] (.mk [(b "tags", ⟨.tuple [], src⟩)] []) 0 [(b "Name", .str []), (b "Tags", .leaf 0), (b "Conf", .leaf 0)] := by
        refine ⟨GenDemo.orderly, rfl, ?_, by simp [Body.attrs], by simp [Body.blocks], fun f hf => ?_⟩
        · intro a ha
          rw [List.mem_singleton.1 ha]
          exact ⟨GenDemo.fTags, by simp [GenDemo.env, Env.flat, flatten], .inr GenDemo.tags_fld, rfl⟩
        · rcases GenDemo.fields_env hf with rfl | rfl | rfl
          · exact GenDemo.shows_of rfl (.inl ⟨GenDemo.name_fld, (⟨.inl rfl, rfl⟩ : GenDemo.fName.mayLack ∧ Val.str [] = GenDemo.ext.zero GenDemo.fName.ty)⟩)
          · refine GenDemo.shows_of rfl (.inr ⟨GenDemo.tags_fld, ?_⟩)
            exact ⟨.tuple (by simp), ⟨.tuple [], rfl, by simp⟩,
              GenDemo.givesAny_const (f := codeList) (o := Hcl.decodeSlice GenDemo.hx src) (v := []) (by unfold Hcl.decodeSlice; rw [hp]; rfl)⟩
          · exact GenDemo.shows_of rfl (.inr ⟨GenDemo.conf_fld, rfl⟩)
      have := C106_decodes_interfaces (m := 0) (labels := []) (st := ⟨[], []⟩) (root := none) (fun _ _ => .refl _) rfl ⟨by simp, by simp, by simp⟩ (by simp)
        GenDemo.canonical hd ⟨fun _ => rfl, fun h => absurd rfl h⟩ (by omega)
      exact ⟨this.1, by rw [this.2]; rfl⟩

end Verif.HclS
