import Verif.Props.HclStructPrint
import Verif.Props.HclStructIface
/-!
# Fields that are pointers to basic values
-/
set_option linter.unusedSimpArgs false

namespace Verif.HclS
open Hcl (Cty Expr IsIdent SafeStr indent)

/-- A struct type whose only field is a pointer to a string or to another basic value. -/
structure OnePtr (env : Env) (c : Nat) (f : Fld) : Prop where
  fields : (env.struct c).fields = [f]
  promoted : (env.struct c).promoted = [(f.name, f.ty)]
  plain : PlainFld f
  ident : IsIdent f.tag
  ptr : f.ty = .ptr .str ∨ ∃ i, f.ty = .ptr (.leaf i)

theorem OnePtr.flat {env c f} (_ : OnePtr env c f) : env.flat 0 c = env.struct c := by
  simp [Env.flat, flatten]

theorem OnePtr.regular {env c f} (h : OnePtr env c f) : Regular env 0 c := by
  refine ⟨?_, ?_, ?_, ?_, ?_⟩ <;> simp [h.flat, h.fields, h.promoted, embeddedIn]
  exact .inr (.inl h.plain)

theorem OnePtr.writable {env : Env} {pe ext c f} (h : OnePtr env c f) {v : Val} (hv : PlainGood pe ext f v) :
    Writable env 0 pe ext 1 c [(f.name, v)] := by
  refine ⟨h.regular, ⟨Nat.zero_le _, by simp [embeddedIn]⟩, by simp [h.flat, h.fields], ?_, ?_⟩
  · intro g hg
    simp only [h.flat, h.fields, List.mem_singleton] at hg
    subst hg
    exact ⟨h.ident, fun hl => absurd hl.what h.plain.decodes.notLabel⟩
  · intro g hg
    simp only [h.flat, h.fields, List.mem_singleton] at hg
    subst hg
    exact ⟨v, by simp [GoMap.get?], fun hl => absurd hl.what h.plain.decodes.notLabel, fun _ => hv, fun hb => absurd hb (not_plain_block h.plain)⟩

/-- **C145, partial.** A struct whose field is a pointer to a basic value is written and read back if the pointer is nil or if
what is written for the value reads back, as for numbers and booleans.  This holds for zero values too, which are lost if the
field is no pointer.  Missing for the full claim: strings, which are written without quotes (`C145_violated`). -/
theorem C145_partial {env : Env} {pe : PExt} {ext : Ext} {m c i : Nat} {f : Fld} {st : St} {root : Option Nat}
    (hord : ∀ p l, (ext.ord p l).Perm l) (hpo : ∀ p l, (pe.ord p l).Perm l) (hpo2 : ∀ p l, (pe.ord2 p l).Perm l)
    (hz : ZeroOk ext) (hinv : Tree.Inv st.heap) (hroot : ∀ r, root = some r → r < st.heap.length) (hcan : Canonical env ext st.ref)
    (h : OnePtr env c f)
    (hv : i = 0 ∨ ∃ n t e cv, pe.raw (.leaf i) = List.replicate n 32 ++ (b "= " ++ t) ∧ TextIs t e ∧ Lit e ∧
      evalE ext [] e = .ok cv ∧ cv ≠ .null ∧ ext.leaf f cv = .ok (.leaf i)) :
    ReadsBack env pe ext m (.ref c [(f.name, .leaf i)]) [] st root c [(f.name, .leaf i)] := by
  have hty : ∃ t, f.ty = .ptr t := by rcases h.ptr with h | ⟨_, h⟩ <;> exact ⟨_, h⟩
  have hn : ((env.flat 0 c).fields.filter fun f => lower f.what = b "label") = [] := by
    have := h.plain.decodes.notLabel
    simp [h.flat, h.fields, this]
  refine C72_partial (emb := 0) (n := 1) hord hpo hpo2 hz hinv hroot hcan (.inl rfl) (h.writable ?_) ⟨fun _ => ?_, fun hl => ?_⟩ (by omega)
  · by_cases hi : i = 0
    · subst hi
      obtain ⟨t, hty⟩ := hty
      exact .inl ⟨.inr ⟨t, hty⟩, by rw [hty, hz.ptr], rfl⟩
    · obtain ⟨n, t, e, cv, h1, h2, h3, h4, h5, h6⟩ := hv.resolve_left hi
      obtain ⟨t', hty⟩ := hty
      exact .inr ⟨hi, e, cv, h3, h4, h5, h6, fun k => ⟨t, by rw [hty]; exact .ptr h1, h2⟩⟩
  · simp only [hn]; rfl
  · simp only [hn] at hl; exact absurd rfl hl

/-- A name that means nothing where there are no variables. -/
def Meaningless (s : Bytes) : Prop :=
  IsIdent s ∧ s ≠ b "true" ∧ s ≠ b "false" ∧ s ≠ b "null" ∧ s ≠ b "for" ∧ s ≠ b "var"

theorem ident_noDots : ∀ {s : Bytes}, (∀ x ∈ s, Hcl.identCont x = true) → splitDots s = (s, [])
  | [], _ => rfl
  | c :: r, h => by
    have hc : c ≠ 46 := by
      rintro rfl
      exact absurd (h 46 (by simp)) (by decide)
    rw [splitDots, if_neg hc, ident_noDots fun x hx => h x (by simp [hx])]

theorem splitDots_ident {s : Bytes} (h : IsIdent s) : splitDots s = (s, []) := by
  cases s with
  | nil => exact h.elim
  | cons x r =>
    refine ident_noDots fun y hy => ?_
    rcases List.mem_cons.1 hy with rfl | hy
    · have := h.1
      simp only [Hcl.identCont, Hcl.identStart, Bool.or_eq_true] at this ⊢
      tauto
    · exact h.2 y hy

theorem ident_tight {s : Bytes} (h : IsIdent s) : Tight s := by
  have hne : s ≠ [] := by rintro rfl; exact h
  refine ⟨s.dropLast, s.getLast hne, (List.dropLast_concat_getLast hne).symm, ?_⟩
  have hm := List.getLast_mem hne
  generalize s.getLast hne = x at hm ⊢
  cases s with
  | nil => cases hm
  | cons c r =>
    have : Hcl.identStart x = true ∨ Hcl.identCont x = true := by
      rcases List.mem_cons.1 hm with rfl | hm
      · exact .inl h.1
      · exact .inr (h.2 x hm)
    cases hb : isBlankB x with
    | false => rfl
    | true =>
      simp only [isBlankB, Bool.or_eq_true, decide_eq_true_eq] at hb
      rcases hb with ((rfl | rfl) | rfl) | rfl <;> revert this <;> decide

/-- **C145 is violated.** A pointer to a string is written without quotes.  If the string is a name, then what is written is a
document in which the value is a variable, and reading it fails. -/
theorem C145_violated {env : Env} {pe : PExt} {ext : Ext} {m c i : Nat} {f : Fld} {s : Bytes} {ref : GoMap Bytes Tmpl} {target : Fields}
    {labels : List Bytes} (hord : ∀ p l, (ext.ord p l).Perm l) (h : OnePtr env c f) (hi : i ≠ 0) (hraw : pe.raw (.leaf i) = b " = " ++ s)
    (hs : Meaningless s) :
    ∃ doc, marshalVal env pe (.ref c [(f.name, .leaf i)]) = .ok (b "  " ++ f.tag ++ b "  = " ++ s) ∧
      Hcl.parseConfig (b "  " ++ f.tag ++ b "  = " ++ s) = .ok doc ∧ ∀ body, Reads AnySrc doc body →
        let after := unmarshalSpec env ext m (some body) c target none ⟨[], ref⟩ none labels
        after.target = target ∧ after.outcome = .error .err := by
  obtain ⟨hid, h1, h2, h3, h4, h5⟩ := hs
  have hty : ∃ t, f.ty = .ptr t ∧ f.ty.coll = f.ty := by rcases h.ptr with h | ⟨_, h⟩ <;> exact ⟨_, h, by rw [h]; rfl⟩
  obtain ⟨ty, hty, hcoll⟩ := hty
  have q : b " = " = [32, 61, 32] := rfl
  have q2 : b "  = " = [32, 32, 61, 32] := rfl
  have hline : outLine ⟨f.tag, [], b " = " ++ s, false⟩ = f.tag ++ List.replicate 1 32 ++ (b " = " ++ s) := by
    simp [outLine, labelText, q]
  have htight : Tight (f.tag ++ List.replicate 1 32 ++ (b " = " ++ s)) := ((ident_tight hid).append _).append _
  have htext : indent 1 ++ (f.tag ++ List.replicate 1 32 ++ (b " = " ++ s)) = b "  " ++ f.tag ++ b "  = " ++ s := by
    have : indent 1 = b "  " := rfl
    simp [q, q2, this]
  have hx : fieldEntry f (.leaf i) = [⟨f, .leaf i, true⟩] := by
    simp only [fieldEntry, hcoll, ne_eq, not_true, false_and, if_false]
    simp [hty, passOf, withTag_id (ident_ne h.ident)]
  refine ⟨.mk [(f.tag, .ident s)] [], ?_, ?_, ?_⟩
  · have hf : ∀ n, getFields env pe [(f.name, .leaf i)] n (env.struct c).fields = .ok [⟨f, .leaf i, true⟩] := by
      intro n
      have e := fun deep => fieldList_eq (env := env) (pe := pe) (fs := [(f.name, .leaf i)]) (deep := deep) (L := [f]) (v := fun _ => .leaf i)
        (fun g hg => by rw [List.mem_singleton.1 hg]; exact ⟨h.plain.decodes.upper, h.ident, by simp [GoMap.get?]⟩)
      rw [h.fields]
      cases n <;> simp [getFields, e, hx]
    have hb : isBlank (b " = " ++ s) = false := ((ident_tight hid).append _).notBlank
    have ho : ∀ path rec, outlier env pe rec path 0 true f (.leaf i) = .ok [⟨f.tag, [], b " = " ++ s, false⟩] := by
      intro path rec
      rcases h.ptr with hp | ⟨_, hp⟩ <;> simp [outlier, hp, Ty.coll, levelText, pointerText, Val.isZero, hi, Except.map, outOf, hb, hraw]
    simp only [marshalVal, levelText, Val.isZero, Bool.false_eq_true, if_false, Val.depth, depthF]
    simp only [Nat.max_self, Nat.zero_add, marshalN, marshalStruct, hf, collect, ho, if_true, Except.map]
    have ht := (htight.append (indent 1)).trim
    rw [htext] at ht
    simp [wrapText, structText, hline, plainOf, attrsOf, attrText, indentLines, Hcl.joinB] at ht ⊢
    have e1 : indent 1 = b "  " := rfl
    have e2 : 32 :: (b " = " ++ s) = b "  = " ++ s := rfl
    rw [e1, e2, ht]
  · rw [← htext]
    exact Hcl.parseConfig_lines (arr := [_]) (es := [.attr f.tag (.ident s)])
      (.cons (Hcl.ItemOk.padded 1 (Hcl.LxD.ident h.ident) (.ident (.ident hid) h4)) .nil) (by simp) (by simp [Hcl.Item.attrs]) 1
  · intro body hb
    cases hb with
    | mk ha hb =>
      cases hb
      cases ha with
      | cons h6 h7 =>
        cases h7
        rename_i a
        obtain ⟨k, e, src⟩ := a
        obtain ⟨rfl, rfl, _⟩ := h6
        have hp : ext.ord ([] ++ [b "attributes"]) [f.tag] = [f.tag] := List.perm_singleton.1 (hord _ _)
        have hev : evalE ext [(b "var", .obj [])] (.ident s) = .error .err := by
          have : splitDots s = (s, []) := by
            exact splitDots_ident hid
          simp [evalE, this, rootOf, h1, h2, h3, GoMap.get?, h5, Ne.symm h5]
        have hvars : Tree.variables (Tree.newTree ([] : Tree.Heap Cty) Tree.VAR).1 (Tree.newTree ([] : Tree.Heap Cty) Tree.VAR).2 =
            some [(b "var", .obj [])] := rfl
        have hprep : prepare env ext m (Tree.newTree ([] : Tree.Heap Cty) Tree.VAR).2 ⟨(Tree.newTree ([] : Tree.Heap Cty) Tree.VAR).1, ref⟩
            (Tree.newTree ([] : Tree.Heap Cty) Tree.VAR).2 c [] [] (.mk [(f.tag, ⟨.ident s, src⟩)] []) = .error .err := by
          have : evalAttrs ext (Tree.newTree ([] : Tree.Heap Cty) Tree.VAR).2 (Tree.newTree ([] : Tree.Heap Cty) Tree.VAR).2
              [(f.tag, ⟨.ident s, src⟩)] [f.tag] (Tree.newTree ([] : Tree.Heap Cty) Tree.VAR).1 = .error .err := by
            simp only [evalAttrs, hvars, GoMap.get?]
            simp [hev]
          simp only [prepare, prelude, Body.attrs, GoMap.keys, List.map_cons, List.map_nil, hp, this]
        simp only [unmarshalSpec, defaultTree, decode, decodeStruct, Option.getD_none, hprep, and_self]

namespace PtrDemo
open Demo (fld)

def fCount := fld "Count" "count" (.ptr (.leaf 1))
def fName := fld "Name" "name,optional" (.ptr .str)

/-- With `T` (a pointer to a number, without `optional`) and `Tx` and so on (a pointer to a string). -/
def env : Env where
  struct
    | 0 => ⟨b "main.T", [fCount], [(b "Count", fCount.ty)]⟩
    | n + 1 => ⟨b "main.T" ++ List.replicate (n + 1) 120, [fName], [(b "Name", fName.ty)]⟩
  impl _ _ := false
  name _ := b "?"

/-- The pointer to 0 is value 8, the pointer to `hello` value 9. -/
def ext : Ext := { Demo.ext with leaf := fun _ cv => match cv with
    | .num q => if q = 0 then .ok (.leaf 8) else .error .err
    | .str s => if s = b "hello" then .ok (.leaf 9) else .error .err
    | _ => .error .err }

def pe : PExt := { Demo.pe with raw := fun v => match v with
    | .leaf 8 => b "= 0"
    | .leaf 9 => b " = hello"
    | _ => [] }

theorem count_ptr : OnePtr env 0 fCount :=
  ⟨rfl, rfl, ⟨⟨rfl, by decide +kernel, by decide +kernel, by decide +kernel⟩, .inl (by decide +kernel), rfl⟩, by decide +kernel, .inr ⟨1, rfl⟩⟩

theorem name_ptr : OnePtr env 1 fName :=
  ⟨rfl, rfl, ⟨⟨rfl, by decide +kernel, by decide +kernel, by decide +kernel⟩, .inr (.inr (by decide +kernel)), rfl⟩, by decide +kernel, .inl rfl⟩

theorem zero_text : TextIs (b "0") (.num 0) := by
  refine ⟨?_, [], 48, rfl, rfl⟩
  have := Hcl.ExprOk.int 0
  rwa [show Hcl.intText 0 = b "0" by decide +kernel, show Hcl.intExpr 0 = .num 0 by simp [Hcl.intExpr, Hcl.numVal, Hcl.rd]] at this

theorem canonical : Canonical env ext [] := by
  have hs : ∀ c, (env.struct c).str = b "main.T" ++ List.replicate c 120 := by
    intro c
    cases c with
    | zero => rfl
    | succ n => rfl
  refine canonical_of (fun c c' h => ?_) (fun c => ?_) (fun _ => rfl) (by simp)
  · rw [hs, hs] at h
    have := congrArg List.length h
    simp only [List.length_append, List.length_replicate] at this
    omega
  · rw [hs]
    exact ⟨_, rfl⟩

end PtrDemo

-- A pointer to 0 comes back.
example : ReadsBack PtrDemo.env PtrDemo.pe PtrDemo.ext 0 (.ref 0 [(b "Count", .leaf 8)]) [] ⟨[], []⟩ none 0 [(b "Count", .leaf 8)] :=
  C145_partial (fun _ _ => .refl _) (fun _ _ => .refl _) (fun _ _ => .refl _) ⟨rfl, fun _ => rfl, fun _ => rfl, fun _ _ => rfl⟩
    ⟨by simp, by simp, by simp⟩ (by simp) PtrDemo.canonical PtrDemo.count_ptr
    (.inr ⟨0, b "0", .num 0, .num 0, rfl, PtrDemo.zero_text, .num, rfl, by simp, rfl⟩)

-- So does nil, though the attribute is not optional.
example : ReadsBack PtrDemo.env PtrDemo.pe PtrDemo.ext 0 (.ref 0 [(b "Count", .leaf 0)]) [] ⟨[], []⟩ none 0 [(b "Count", .leaf 0)] :=
  C145_partial (fun _ _ => .refl _) (fun _ _ => .refl _) (fun _ _ => .refl _) ⟨rfl, fun _ => rfl, fun _ => rfl, fun _ _ => rfl⟩
    ⟨by simp, by simp, by simp⟩ (by simp) PtrDemo.canonical PtrDemo.count_ptr (.inl rfl)

-- A pointer to `hello` does not.
example : ∃ doc, marshalVal PtrDemo.env PtrDemo.pe (.ref 1 [(b "Name", .leaf 9)]) = .ok (b "  name  = hello") ∧
    Hcl.parseConfig (b "  name  = hello") = .ok doc ∧ ∀ body, Reads AnySrc doc body →
      let after := unmarshalSpec PtrDemo.env PtrDemo.ext 0 (some body) 1 [(b "Name", .leaf 0)] none ⟨[], []⟩ none []
      after.target = [(b "Name", .leaf 0)] ∧ after.outcome = .error .err :=
  C145_violated (fun _ _ => .refl _) PtrDemo.name_ptr (by decide) rfl
    ⟨by decide +kernel, by decide +kernel, by decide +kernel, by decide +kernel, by decide +kernel, by decide +kernel⟩

-- The quoted string would have been read.
example : (unmarshalSpec PtrDemo.env PtrDemo.ext 0 (some (.mk [(b "name", ⟨.str (b "hello"), []⟩)] [])) 1 [(b "Name", .leaf 0)] none ⟨[], []⟩
    none []).target = [(b "Name", .leaf 9)] := rfl

end Verif.HclS
