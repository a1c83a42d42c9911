import Verif.Lemmas.HclStructPrint
import Verif.Props.HclStructDoc
/-!
# Writing a struct and reading it back
-/
set_option linter.unusedSimpArgs false

namespace Verif.HclS
open Tree (Heap)
open Hcl (Cty Expr IsIdent SafeStr indent)
open Det (Cls CVal KeyTy ltB ltB2)

/-- **C72, for structs that are writable.** What `Marshal` writes for such a struct, or for a pointer to it, is a document, and
`Unmarshal` of this document with the same labels gives the struct, in every iteration order, whatever is in `ref` and in the
tree of variables.  Missing for the full claim: structs as in the counterexamples below and generic fields. -/
theorem C72_partial {env : Env} {pe : PExt} {ext : Ext} {emb n m c : Nat} {v : Val} {fs : Fields} {labels : List Bytes} {st : St}
    {root : Option Nat} (hord : ∀ p l, (ext.ord p l).Perm l) (hpo : ∀ p l, (pe.ord p l).Perm l) (hpo2 : ∀ p l, (pe.ord2 p l).Perm l)
    (hz : ZeroOk ext) (hinv : Tree.Inv st.heap) (hroot : ∀ r, root = some r → r < st.heap.length) (hcan : Canonical env ext st.ref)
    (hv : v = .ref c fs ∨ v = .inst c fs ∧ ¬ v.Zero) (hw : Writable env emb pe ext n c fs)
    (hl : LabelsAre (env.flat emb c) fs labels) (hn : n + emb ≤ m + 1) :
    ReadsBack env pe ext m v labels st root c fs := by
  obtain ⟨addr, hd, hm⟩ : ∃ addr, v.depth = depthF fs + 1 ∧ marshalVal env pe v = marshalN env pe (depthF fs + 1) [] 0 [] addr c fs := by
    rcases hv with rfl | ⟨rfl, hz⟩
    · exact ⟨true, by simp [Val.depth], by simp [marshalVal, levelText, Val.isZero, Val.depth]⟩
    · exact ⟨false, by simp [Val.depth], by simp [marshalVal, levelText, isZero_false.2 hz, Val.depth]⟩
  obtain ⟨t, h1, h2⟩ := writable_rendered hz hpo hpo2 n (depthF fs + 1) [] 0 [] addr c fs hw (by omega)
  obtain ⟨doc, h3, h4⟩ := rendered_root h2
  exact ⟨t, doc, hm.trans h1, h3, fun body hb => C71_decodes_struct hord hz.str hinv hroot hcan (h4 body hb) hl hn⟩

/-- **C72: labels.** A struct in a slice or in a field of its own: if its labels are not empty they are written, in order, and
decoding expects them. -/
theorem C72_labels {d : StructDecl} {fs : Fields} (h : ∀ f ∈ d.fields, lower f.what = b "label" → ∃ s, s ≠ [] ∧ GoMap.get? fs f.name = some (.str s)) :
    LabelsAre d fs (writtenLabels d fs none) := by
  have e : (d.fields.filter fun f => lower f.what = b "label").map (fun f => GoMap.get? fs f.name) =
      (writtenLabels d fs none).map fun s => some (.str s) := by
    unfold writtenLabels ownLabels
    generalize hL : d.fields = L at h
    clear hL
    induction L with
    | nil => rfl
    | cons f L ih =>
      have ih := ih fun g hg => h g (by simp [hg])
      by_cases hw : lower f.what = b "label"
      · obtain ⟨s, hs, hg⟩ := h f (by simp) hw
        simp only [List.filter_cons, hw, decide_true, if_true, List.map_cons, List.filterMap_cons, hg, hs, ne_eq, not_false_eq_true,
          reduceCtorEq, and_self, List.cons.injEq, true_and]
        simpa using ih
      · simp only [List.filter_cons, hw, decide_false, Bool.false_eq_true, if_false]
        exact ih
  refine ⟨fun _ => e, fun hl => ?_⟩
  have := congrArg List.length e
  simp only [List.length_map] at this
  exact absurd this.symm hl

/-- **C72: labels in maps.** A struct under a key: the key is its first label, and its other labels are neither empty nor the
key. -/
theorem C72_labels_map {d : StructDecl} {fs : Fields} {key : Bytes} {f0 : Fld} {l : List Fld}
    (hd : d.fields.filter (fun f => lower f.what = b "label") = f0 :: l) (h0 : GoMap.get? fs f0.name = some (.str key))
    (h : ∀ f ∈ l, ∃ s, s ≠ [] ∧ s ≠ key ∧ GoMap.get? fs f.name = some (.str s)) :
    LabelsAre d fs (key :: writtenLabels d fs (some key)) := by
  have e : (f0 :: l).map (fun f => GoMap.get? fs f.name) = (key :: writtenLabels d fs (some key)).map fun s => some (.str s) := by
    unfold writtenLabels ownLabels
    rw [hd]
    simp only [List.map_cons, h0, List.filterMap_cons, List.filter_cons, ne_eq, not_true, and_false, decide_false, Bool.false_eq_true,
      if_false, List.cons.injEq, true_and]
    clear hd
    induction l with
    | nil => rfl
    | cons f l ih =>
      obtain ⟨s, hs, hk, hg⟩ := h f (by simp)
      have hk' : ¬ key = s := fun e => hk e.symm
      simp only [List.map_cons, List.filterMap_cons, hg, List.filter_cons, hs, hk', ne_eq, not_false_eq_true, Option.some.injEq,
        and_self, decide_true, if_true, List.cons.injEq, true_and]
      simpa using ih fun g hg => h g (by simp [hg])
  refine ⟨fun _ => by rw [hd]; exact e, fun hl => ?_⟩
  have := congrArg List.length e
  simp only [List.length_map] at this
  rw [hd] at hl
  exact absurd this.symm hl

namespace Demo

/-- Strings in quotes, maps in the given order. -/
def pe : PExt where
  anon _ := false
  expr _ v := match v with | .str s => 34 :: s ++ [34] | _ => b "null"
  pad _ _ := 0
  enc _ _ := .error .unsupported
  raw _ := []
  ord _ l := l
  ord2 _ l := l
  embedded := 0

instance : DecidablePred IsIdent
  | [] => .isFalse id
  | _ :: _ => inferInstanceAs (Decidable (_ ∧ _))

theorem zeroOk : ZeroOk ext := ⟨rfl, fun _ => rfl, fun _ => rfl, fun _ _ => rfl⟩

theorem good_str {q : PExt} {x : Ext} {f : Fld} {s : Bytes} (hty : f.ty = .str) (hs : SafeStr s) (h0 : s ≠ []) (h : ∀ i, indentLines (indent i) s = s)
    (hq : q.expr = pe.expr := by rfl) (hx : x.nfc = id := by rfl) (hl : x.leaf = ext.leaf := by rfl) : PlainGood q x f (.str s) := by
  refine Or.inr ⟨by cases s <;> simp_all [Val.Zero], .str s, .str s, .str, by simp only [evalE, hx, id], by simp, by rw [hl]; rfl, fun k => ?_⟩
  rw [hty]
  refine ⟨_, .str, ?_⟩
  have e : indentLines (indent k) (q.expr f (.str s)) = 34 :: s ++ [34] := by
    rw [hq]
    simp only [pe, List.cons_append]
    rw [indentLines, if_neg (by decide), indentLines_append, h, indentLines_id _ (by decide)]
  rw [e]
  exact ⟨Hcl.ExprOk.str hs, 34 :: s, 34, by simp, by decide⟩

theorem good1 (i v : String) (hv : SafeStr (b v)) (h0 : b v ≠ []) (h : ∀ k, indentLines (indent k) (b v) = b v) :
    Writable env 0 pe ext 1 1 [(b "Id", .str (b i)), (b "Val", .str (b v))] := by
  refine ⟨regular1, ⟨Nat.zero_le _, by simp [embeddedIn]⟩, rfl, ?_, ?_⟩
  · intro f hf
    have hf' : f = fId ∨ f = fVal := by simpa [env, Env.flat, flatten] using hf
    rcases hf' with rfl | rfl
    · exact ⟨by simp only [show fId.tag = b "id" from rfl]; decide +kernel, fun _ => rfl⟩
    · exact ⟨by simp only [show fVal.tag = b "val" from rfl]; decide +kernel, fun h => absurd h.what (plain_of (by simp)).decodes.notLabel⟩
  · intro f hf
    have hf' : f = fId ∨ f = fVal := by simpa [env, Env.flat, flatten] using hf
    rcases hf' with rfl | rfl
    · exact ⟨_, rfl, fun _ => ⟨_, rfl⟩, fun h => absurd h (not_label_plain label_fId), fun h => absurd h (not_label_block label_fId)⟩
    · have hp : PlainFld fVal := plain_of (by simp)
      exact ⟨_, rfl, fun h => absurd h.what hp.decodes.notLabel, fun _ => good_str rfl hv h0 h, fun h => absurd h (not_plain_block hp)⟩

theorem good2 (v : String) (hv : SafeStr (b v)) (h0 : b v ≠ []) (h : ∀ k, indentLines (indent k) (b v) = b v) :
    Writable env 0 pe ext 1 2 [(b "Val", .str (b v))] := by
  have hp : PlainFld fVal := plain_of (by simp)
  refine ⟨regular2, ⟨Nat.zero_le _, by simp [embeddedIn]⟩, rfl, ?_, ?_⟩
  · intro f hf
    have hf' : f = fVal := by simpa [env, Env.flat, flatten] using hf
    subst hf'
    exact ⟨by simp only [show fVal.tag = b "val" from rfl]; decide +kernel, fun h => absurd h.what hp.decodes.notLabel⟩
  · intro f hf
    have hf' : f = fVal := by simpa [env, Env.flat, flatten] using hf
    subst hf'
    exact ⟨_, rfl, fun h => absurd h.what hp.decodes.notLabel, fun _ => good_str rfl hv h0 h, fun h => absurd h (not_plain_block hp)⟩

def safeByte (c : UInt8) : Bool := utf8Valid [c] && decide (c ≠ 34 ∧ c ≠ 92 ∧ c ≠ 10 ∧ c ≠ 13)

theorem safe_byte {c : UInt8} (h : safeByte c = true) : SafeStr [c] ∧ ∀ k, indentLines (indent k) [c] = [c] := by
  simp only [safeByte, Bool.and_eq_true, decide_eq_true_eq] at h
  refine ⟨⟨h.1, ?_, ?_, ?_⟩, fun k => indentLines_id _ fun hm => h.2.2.2.1 (List.mem_singleton.1 hm).symm⟩
  · intro x hx; rw [List.mem_singleton.1 hx]; exact h.2
  · intro h'; have := h'.length_le; simp at this
  · intro h'; have := h'.length_le; simp at this

theorem full_writable : Writable env 0 pe ext 2 3 fullStruct := by
  have hd : ∀ {c : UInt8}, safeByte c = true → SafeStr [c] := fun h => (safe_byte h).1
  have hi : ∀ {c : UInt8}, safeByte c = true → ∀ k, indentLines (indent k) [c] = [c] := fun h => (safe_byte h).2
  have w1 : ∀ {c d : UInt8} {i v : String}, b i = [c] → b v = [d] → safeByte c = true → safeByte d = true →
      BlockVal env 0 (Writable env 0 pe ext 1) [] (.ptr (.struct 1)) (one i v) := by
    intro c d i v e1 e2 h1 h2
    have el : writtenLabels (env.flat 0 1) [(b "Id", .str (b i)), (b "Val", .str (b v))] none = [b i] := by
      have : ownLabels (env.flat 0 1) [(b "Id", .str (b i)), (b "Val", .str (b v))] = [b i] := rfl
      rw [writtenLabels, this, e1]
      simp
    refine ⟨1, _, rfl, .ptr, good1 i v ?_ ?_ ?_, ?_, ?_⟩
    · rw [e2]; exact hd h2
    · rw [e2]; simp
    · rw [e2]; exact hi h2
    · simp only [List.nil_append, List.head?_nil, el, List.mem_singleton, forall_eq]
      rw [e1]
      exact hd h1
    · simp only [List.nil_append, List.head?_nil, el]
      exact labels1 i v
  have w2 : ∀ {d : UInt8} {v : String}, b v = [d] → safeByte d = true → ∀ keys, (∀ l ∈ keys, SafeStr l) →
      ∀ {ty : Ty} {w : Val}, ty.structOf = some 2 → Holds env ty 2 [(b "Val", .str (b v))] w → BlockVal env 0 (Writable env 0 pe ext 1) keys ty w := by
    intro d v e2 h2 keys hk ty w ht hh
    have el : ∀ k, writtenLabels (env.flat 0 2) [(b "Val", .str (b v))] k = [] := fun _ => rfl
    refine ⟨2, _, ht, hh, good2 v ?_ ?_ ?_, ?_, labels2 _ _⟩
    · rw [e2]; exact hd h2
    · rw [e2]; simp
    · rw [e2]; exact hi h2
    · rw [el, List.append_nil]; exact hk
  refine ⟨regular3, ⟨Nat.zero_le _, by simp [embeddedIn]⟩, rfl, ?_, ?_⟩
  · intro f hf
    have hf' : f = fName ∨ f = fItems ∨ f = fMap ∨ f = fPairs ∨ f = fOne := by simpa [env, Env.flat, flatten] using hf
    have hl : ¬ LabelFld f := by
      intro h
      rcases hf' with rfl | hf'
      · exact not_label_plain h (plain_of (by simp))
      · exact not_label_block h (block_of (by simpa using hf'))
    refine ⟨?_, fun h => absurd h hl⟩
    rcases hf' with rfl | rfl | rfl | rfl | rfl
    · simp only [show fName.tag = b "name" from rfl]; decide +kernel
    · simp only [show fItems.tag = b "items" from rfl]; decide +kernel
    · simp only [show fMap.tag = b "map" from rfl]; decide +kernel
    · simp only [show fPairs.tag = b "pairs" from rfl]; decide +kernel
    · simp only [show fOne.tag = b "one" from rfl]; decide +kernel
  · have hblk : ∀ {f : Fld} {v : Val}, f ∈ [fItems, fMap, fPairs, fOne] → GoMap.get? fullStruct f.name = some v →
        BlockGood env 0 ext (Writable env 0 pe ext 1) f.ty v →
        ∃ v, GoMap.get? fullStruct f.name = some v ∧ (LabelFld f → ∃ s, v = .str s) ∧ (PlainFld f → PlainGood pe ext f v) ∧
          (BlockFld f → BlockGood env 0 ext (Writable env 0 pe ext 1) f.ty v) := by
      intro f v hf hg hb
      exact ⟨v, hg, fun h => absurd (block_of hf) (not_label_block h), fun h => absurd (block_of hf) (not_plain_block h), fun _ => hb⟩
    intro f hf
    have hf' : f = fName ∨ f = fItems ∨ f = fMap ∨ f = fPairs ∨ f = fOne := by simpa [env, Env.flat, flatten] using hf
    rcases hf' with rfl | rfl | rfl | rfl | rfl
    · have hp : PlainFld fName := plain_of (by simp)
      exact ⟨_, rfl, fun h => absurd h.what hp.decodes.notLabel, fun _ => good_str rfl (hd (c := 110) (by decide)) (by decide +kernel) (hi (c := 110) (by decide)),
        fun h => absurd h (not_plain_block hp)⟩
    · refine hblk (by simp) rfl (Or.inr ⟨_, by simp, rfl, ?_⟩)
      intro x hx
      simp only [List.mem_cons, List.not_mem_nil, or_false] at hx
      rcases hx with rfl | rfl
      · exact ⟨id, w1 (c := 97) (d := 49) rfl rfl (by decide) (by decide)⟩
      · exact ⟨id, w1 (c := 99) (d := 50) rfl rfl (by decide) (by decide)⟩
    · refine hblk (by simp) rfl (Or.inr ⟨_, by simp, rfl, ?_, ?_⟩)
      · refine .cons ?_ (.cons (by simp) .nil)
        intro y hy
        rw [List.mem_singleton.1 hy]
        decide +kernel
      · intro x hx
        simp only [List.mem_cons, List.not_mem_nil, or_false] at hx
        rcases hx with rfl | rfl
        · exact w2 (d := 52) rfl (by decide) _ (fun l hl => by rw [List.mem_singleton.1 hl]; exact hd (c := 107) (by decide)) rfl .struct
        · exact w2 (d := 53) rfl (by decide) _ (fun l hl => by rw [List.mem_singleton.1 hl]; exact hd (c := 108) (by decide)) rfl .struct
    · refine hblk (by simp) rfl (Or.inr ⟨_, by simp, rfl, .cons (by simp) .nil, ?_⟩)
      intro x hx
      rw [List.mem_singleton.1 hx]
      refine ⟨by decide +kernel, w2 (d := 51) rfl (by decide) _ ?_ rfl .ptr, ?_⟩
      · intro l hl
        have hl' : l = [112] ∨ l = [113] := by simpa [pairLabels, show b "p" = [112] from rfl, show b "q" = [113] from rfl] using hl
        rcases hl' with rfl | rfl
        · exact hd (by decide)
        · exact hd (by decide)
      · intro c fs hh
        cases hh
        exact ⟨rfl, fun h => absurd h (by decide +kernel)⟩
    · exact hblk (by simp) rfl (Or.inl rfl)

/-- An `Item` is embedded. -/
def pe4 : PExt := { pe with anon := fun f => f.name = b "Item", embedded := 1 }

theorem embeds_writable : Writable env 1 pe4 ext 2 4 embedsStruct := by
  have hv : PlainFld fVal := plain_of (by simp)
  have hn : PlainFld fName := plain_of (by simp)
  refine ⟨regular4, ⟨Nat.le_refl _, ?_⟩, rfl, ?_, ?_⟩
  · intro g hg
    rw [embedded4, List.mem_singleton] at hg
    subst hg
    rfl
  · intro f hf
    rw [flat4] at hf
    simp only [List.mem_cons, List.not_mem_nil, or_false] at hf
    rcases hf with rfl | rfl | rfl | rfl
    · exact ⟨by simp only [show fName.tag = b "name" from rfl]; decide +kernel, fun h => absurd h.what hn.decodes.notLabel⟩
    · exact ⟨by simp only [show fId.tag = b "id" from rfl]; decide +kernel, fun _ => rfl⟩
    · exact ⟨by simp only [show fVal.tag = b "val" from rfl]; decide +kernel, fun h => absurd h.what hv.decodes.notLabel⟩
    · exact ⟨by simp only [show fMap.tag = b "map" from rfl]; decide +kernel, fun h => absurd (block_of (by simp)) (not_label_block h)⟩
  · intro f hf
    rw [flat4] at hf
    simp only [List.mem_cons, List.not_mem_nil, or_false] at hf
    rcases hf with rfl | rfl | rfl | rfl
    · exact ⟨_, rfl, fun h => absurd h.what hn.decodes.notLabel,
        fun _ => good_str rfl (safe_byte (c := 110) (by decide)).1 (by decide +kernel) (safe_byte (c := 110) (by decide)).2, fun h => absurd h (not_plain_block hn)⟩
    · exact ⟨_, rfl, fun _ => ⟨_, rfl⟩, fun h => absurd h (not_label_plain label_fId), fun h => absurd h (not_label_block label_fId)⟩
    · exact ⟨_, rfl, fun h => absurd h.what hv.decodes.notLabel,
        fun _ => good_str rfl (safe_byte (c := 118) (by decide)).1 (by decide +kernel) (safe_byte (c := 118) (by decide)).2, fun h => absurd h (not_plain_block hv)⟩
    · refine ⟨_, rfl, fun h => absurd (block_of (by simp)) (not_label_block h), fun h => absurd (block_of (by simp)) (not_plain_block h), fun _ => ?_⟩
      refine Or.inr ⟨_, by simp, rfl, .cons (by simp) .nil, ?_⟩
      intro x hx
      rw [List.mem_singleton.1 hx]
      have el : ∀ k, writtenLabels (env.flat 1 2) [(b "Val", .str (b "4"))] k = [] := fun _ => rfl
      refine ⟨2, _, rfl, .struct, ⟨regular2', ⟨Nat.le_refl _, ?_⟩, rfl, ?_, ?_⟩, ?_, labels2 _ _⟩
      · intro g hg
        rw [show embeddedIn env 1 (env.struct 2).fields = [] from rfl] at hg
        cases hg
      · intro f hf
        rw [show (env.flat 1 2).fields = [fVal] from rfl, List.mem_singleton] at hf
        subst hf
        exact ⟨by simp only [show fVal.tag = b "val" from rfl]; decide +kernel, fun h => absurd h.what hv.decodes.notLabel⟩
      · intro f hf
        rw [show (env.flat 1 2).fields = [fVal] from rfl, List.mem_singleton] at hf
        subst hf
        exact ⟨_, rfl, fun h => absurd h.what hv.decodes.notLabel,
          fun _ => good_str rfl (safe_byte (c := 52) (by decide)).1 (by decide +kernel) (safe_byte (c := 52) (by decide)).2, fun h => absurd h (not_plain_block hv)⟩
      · rw [el, List.append_nil]
        intro l hl
        rw [List.mem_singleton.1 hl]
        exact (safe_byte (c := 107) (by decide)).1

end Demo

-- `C72_partial` for a struct with all kinds of fields.
example : ReadsBack Demo.env Demo.pe Demo.ext 1 (.ref 3 Demo.fullStruct) [] ⟨[], Demo.ref0⟩ none 3 Demo.fullStruct :=
  C72_partial (fun _ _ => .refl _) (fun _ _ => .refl _) (fun _ _ => .refl _) Demo.zeroOk ⟨by simp, by simp, by simp⟩ (by simp) Demo.canonical
    (.inl rfl) Demo.full_writable ⟨fun _ => rfl, fun h => absurd rfl h⟩ (by omega)

-- The same for a struct that embeds another; its label is not written at the root, but expected from the caller.
example : ReadsBack Demo.env Demo.pe4 Demo.ext 2 (.ref 4 Demo.embedsStruct) [b "i"] ⟨[], Demo.ref0⟩ none 4 Demo.embedsStruct :=
  C72_partial (fun _ _ => .refl _) (fun _ _ => .refl _) (fun _ _ => .refl _) Demo.zeroOk ⟨by simp, by simp, by simp⟩ (by simp) Demo.canonical
    (.inl rfl) Demo.embeds_writable ⟨fun _ => rfl, fun h => absurd rfl h⟩ (by omega)

set_option maxRecDepth 20000 in
-- What is written for the first.
example : marshalVal Demo.env Demo.pe (.ref 3 Demo.fullStruct) = .ok (b
"  name = \"n\"
  items \"a\" {
    val = \"1\"
  }
  items \"c\" {
    val = \"2\"
  }
  map \"k\" {
    val = \"4\"
  }
  map \"l\" {
    val = \"5\"
  }
  pairs \"p\" \"q\" {
    val = \"3\"
  }") := by rfl

namespace Demo

def fBox := fld "Box" "box,block" (.map .str (.ptr (.struct 1)))
def fReq := fld "Req" "req" .str
def fTwo := fld "Two" "two,label" .str

/-- With `Box` (a map of structs with label), `Need` (a required attribute) and `Pair` (two labels). -/
def env2 : Env where
  struct
    | 4 => ⟨b "main.Box", [fBox], [(b "Box", fBox.ty)]⟩
    | 5 => ⟨b "main.Need", [fReq], [(b "Req", .str)]⟩
    | 6 => ⟨b "main.Pair", [fId, fTwo], [(b "Id", .str), (b "Two", .str)]⟩
    | 7 => ⟨b "main.Pairs", [fld "P" "p,block" (.slice (.ptr (.struct 6)))], [(b "P", .slice (.ptr (.struct 6)))]⟩
    | n => env.struct n
  impl _ _ := false
  name _ := b "?"

/-- Writes a struct and decodes what was written into a new struct. -/
def back (c : Nat) (fs : Fields) : Option (Fields × Option Fail) :=
  match marshalVal env2 pe (.ref c fs) with
  | .error _ => none
  | .ok t =>
    match Hcl.parseConfig t with
    | .error _ => none
    | .ok doc =>
      let after := unmarshalSpec env2 ext 1 (some (ofDoc doc)) c (newFields env2 ext c) none ⟨[], []⟩ none []
      some (after.target, match after.outcome with | .ok _ => none | .error e => some e)

def items (l : List Val) : Fields :=
  [(b "Name", .str []), (b "Items", .slice l), (b "Map", .leaf 0), (b "Pairs", .leaf 0), (b "One", .leaf 0)]

end Demo

/-- **C72 is violated: elements are lost.** A slice of pointers to structs that begins with nil is written like the slice
without it. -/
theorem C72_violated_nil : marshalVal Demo.env Demo.pe (.ref 3 (Demo.items [.leaf 0, Demo.one "a" "1"])) =
    marshalVal Demo.env Demo.pe (.ref 3 (Demo.items [Demo.one "a" "1"])) ∧
    Demo.items [.leaf 0, Demo.one "a" "1"] ≠ Demo.items [Demo.one "a" "1"] := by
  refine ⟨rfl, ?_⟩
  intro h
  simp [Demo.items] at h

/-- **C72 is violated: labels.** The labels of the struct itself are not written; an empty label is left out, so that it is not
known which label the other one is. -/
theorem C72_violated_labels :
    marshalVal Demo.env Demo.pe (Demo.one "a" "1") = marshalVal Demo.env Demo.pe (Demo.one "c" "1") ∧
    marshalVal Demo.env2 Demo.pe (.ref 7 [(b "P", .slice [.ref 6 [(b "Id", .str (b "a")), (b "Two", .str [])]])]) =
      marshalVal Demo.env2 Demo.pe (.ref 7 [(b "P", .slice [.ref 6 [(b "Id", .str []), (b "Two", .str (b "a"))]])]) ∧
    Demo.back 7 [(b "P", .slice [.ref 6 [(b "Id", .str (b "a")), (b "Two", .str [])]])] =
      some ([(b "P", .slice [.ref 6 [(b "Id", .str []), (b "Two", .str [])]])], none) := ⟨rfl, rfl, rfl⟩

/-- **C72 is violated: quotes.** A label with a quote is not escaped, and what is written is not HCL. -/
theorem C72_violated_quote : ∃ t, marshalVal Demo.env Demo.pe (.ref 3 (Demo.items [Demo.one "\"" "1"])) = .ok t ∧
    ∃ e, Hcl.parseConfig t = .error e := ⟨_, rfl, _, rfl⟩

/-- **C72 is violated: zero values.** A required attribute that is zero is left out, and decoding refuses the document. -/
theorem C72_violated_zero : Demo.back 5 [(b "Req", .str [])] = some ([(b "Req", .str [])], some .err) := rfl

/-- **C72 is violated: keys.** A struct in a map whose label is not the key comes back without label. -/
theorem C72_violated_key : Demo.back 4 [(b "Box", .map [(b "k", Demo.one "a" "1")])] =
    some ([(b "Box", .map [(b "k", .ref 1 [(b "Id", .str []), (b "Val", .str (b "1"))])])], none) := rfl

-- With the key as label it comes back.
example : Demo.back 4 [(b "Box", .map [(b "a", Demo.one "a" "1")])] = some ([(b "Box", .map [(b "a", Demo.one "a" "1")])], none) := rfl

end Verif.HclS
