import Verif.Lemmas.HclStructMarshal
import Verif.Props.HclStructPrint
/-!
# Iteration orders and panics when structs are written
-/
set_option linter.unusedSimpArgs false

namespace Verif.HclS
open Tree (Heap)

/-- The same but for the iteration orders. -/
def SameText (pe pe' : PExt) : Prop :=
  pe.anon = pe'.anon ∧ pe.expr = pe'.expr ∧ pe.pad = pe'.pad ∧ pe.enc = pe'.enc ∧ pe.raw = pe'.raw ∧ pe.embedded = pe'.embedded

/-- **C73, for values whose maps have at most one entry.** The text does not depend on iteration orders.  Missing for the full
claim: maps with more entries, for which it is false (`C73_violated`). -/
theorem C73_partial {env : Env} {pe pe' : PExt} (h : SameText pe pe') (h1 : ∀ p l, (pe.ord p l).Perm l) (h2 : ∀ p l, (pe.ord2 p l).Perm l)
    (h1' : ∀ p l, (pe'.ord p l).Perm l) (h2' : ∀ p l, (pe'.ord2 p l).Perm l) {v : Val} (hv : v.small) :
    marshalVal env pe v = marshalVal env pe' v :=
  levelText_same h (marshalN_same h h1 h2 h1' h2' _) hv

theorem writable_same {env : Env} {emb : Nat} {pe pe' : PExt} {ext : Ext} (ha : pe.anon = pe'.anon) (he : pe.embedded = pe'.embedded) (h : pe.expr = pe'.expr) (h' : pe.enc = pe'.enc)
    (h'' : pe.raw = pe'.raw) : ∀ (n : Nat) {c fs},
    Writable env emb pe ext n c fs → Writable env emb pe' ext n c fs
  | 0, _, _, hw => hw
  | n + 1, c, fs, hw => by
    refine ⟨hw.1, by rw [← ha, ← he]; exact hw.2.1, hw.2.2.1, hw.2.2.2.1, fun f hf => ?_⟩
    obtain ⟨v, hv, h3, h4, h5⟩ := hw.2.2.2.2 f hf
    refine ⟨v, hv, h3, fun hp => ?_, fun hb => ?_⟩
    · have := h4 hp
      have e : ∀ {ty f k v t}, AttrText pe ty f k v t → AttrText pe' ty f k v t := by
        intro ty f k v t ht
        cases ht with
        | str => rw [h]; exact .str
        | leaf => rw [h]; exact .leaf
        | list h1 => rw [h]; exact .list h1
        | nolist => exact .nolist
        | lists h1 h2 => exact .lists h1 (h' ▸ h2)
        | map h1 => rw [h]; exact .map h1
        | ptr h1 => exact .ptr (h'' ▸ h1)
        | maps h1 h2 => exact .maps h1 (h' ▸ h2)
      refine this.imp_right fun ⟨h1, x, cv, h2, h3, h4, h5, h6⟩ => ⟨h1, x, cv, h2, h3, h4, h5, fun k => ?_⟩
      obtain ⟨t, h7, h8⟩ := h6 k
      exact ⟨t, e h7, h8⟩
    · have := h5 hb
      have hbv : ∀ {keys ty v}, BlockVal env emb (Writable env emb pe ext n) keys ty v → BlockVal env emb (Writable env emb pe' ext n) keys ty v := by
        rintro keys ty v ⟨c, fs, h1, h2, h3, h4⟩
        exact ⟨c, fs, h1, h2, writable_same ha he h h' h'' n h3, h4⟩
      generalize f.ty = ty at this ⊢
      clear hb h5
      cases ty with
      | struct c => exact this.imp_right hbv
      | slice e => exact this.imp_right fun ⟨l, h1, h2, h3⟩ => ⟨l, h1, h2, fun x hx => ⟨(h3 x hx).1, hbv (h3 x hx).2⟩⟩
      | map k e =>
        cases k with
        | str => exact this.imp_right fun ⟨l, h1, h2, h3, h4⟩ => ⟨l, h1, h2, h3, fun x hx => hbv (h4 x hx)⟩
        | str2 => exact this.imp_right fun ⟨l, h1, h2, h3, h4⟩ => ⟨l, h1, h2, h3, fun x hx => ⟨(h4 x hx).1, hbv (h4 x hx).2.1, (h4 x hx).2.2⟩⟩
        | _ => exact this.imp_right hbv
      | _ => exact this.imp_right hbv

/-- **C73, what remains for other values.** Whatever the order, the text of a writable struct is read back as this struct: the
texts of two runs may differ but mean the same. -/
theorem C73_same_meaning {env : Env} {pe : PExt} {ext : Ext} {emb n m c : Nat} {v : Val} {fs : Fields} {labels : List Bytes} {st : St}
    {root : Option Nat} (hord : ∀ p l, (ext.ord p l).Perm l) (hpo : ∀ p l, (pe.ord p l).Perm l) (hpo2 : ∀ p l, (pe.ord2 p l).Perm l)
    (hz : ZeroOk ext) (hinv : Tree.Inv st.heap) (hroot : ∀ r, root = some r → r < st.heap.length) (hcan : Canonical env ext st.ref)
    (hv : v = .ref c fs ∨ v = .inst c fs ∧ ¬ v.Zero) (hw : Writable env emb pe ext n c fs)
    (hl : LabelsAre (env.flat emb c) fs labels) (hn : n + emb ≤ m + 1) {pe' : PExt} (h : SameText pe pe')
    (h1' : ∀ p l, (pe'.ord p l).Perm l) (h2' : ∀ p l, (pe'.ord2 p l).Perm l) {t t' : Bytes}
    (ht : marshalVal env pe v = .ok t) (ht' : marshalVal env pe' v = .ok t') :
    ∃ doc doc', Hcl.parseConfig t = .ok doc ∧ Hcl.parseConfig t' = .ok doc' ∧ ∀ body body', Reads AnySrc doc body → Reads AnySrc doc' body' →
      (unmarshalSpec env ext m (some body) c (newFields env ext c) none st root labels).target =
        (unmarshalSpec env ext m (some body') c (newFields env ext c) none st root labels).target := by
  have hw' : Writable env emb pe' ext n c fs := writable_same h.1 h.2.2.2.2.2 h.2.1 h.2.2.2.1 h.2.2.2.2.1 n hw
  obtain ⟨s, doc, e1, e2, e3⟩ := C72_partial hord hpo hpo2 hz hinv hroot hcan hv hw hl hn
  obtain ⟨s', doc', e1', e2', e3'⟩ := C72_partial hord h1' h2' hz hinv hroot hcan hv hw' hl hn
  rw [ht] at e1
  rw [ht'] at e1'
  cases e1
  cases e1'
  exact ⟨doc, doc', e2, e2', fun body body' hb hb' => ((e3 body hb).2).trans ((e3' body' hb').2).symm⟩

/-- **C74, for tame structs.** `Marshal` does not panic: without nil pointers in maps, collections among the structs of a map of
interfaces, pointers to embedded structs and pointers to collections of basic values, if labels are strings and no name comes twice.  The text of generic data is
assumed not to panic.  Missing for the full claim: the rest, where it is false. -/
theorem C74_partial {env : Env} {pe : PExt} (henc : ∀ v k, pe.enc v k ≠ .error .panic) {n c : Nat} {fs : Fields} {v : Val}
    (hv : v = .ref c fs ∨ v = .inst c fs) (ht : Tame env pe n c fs) : marshalVal env pe v ≠ .error .panic := by
  refine levelText_calm (good := Tame env pe n) henc (marshalN_calm henc n _) trivial ?_
  rcases hv with rfl | rfl
  · exact ht
  · exact ht

namespace Demo

/-- Maps in reverse order. -/
def peRev : PExt := { pe with ord := fun _ l => l.reverse, ord2 := fun _ l => l.reverse }

def fAny := fld "Any" "any,block" (.map .str .any)
def fBase3 : Fld := fld "Base" "" (.struct 2)
def fPBase : Fld := fld "PBase" "" (.ptr (.struct 2))

/-- With maps of interfaces, embedded structs and labels of other types. -/
def env3 : Env where
  struct
    | 8 => ⟨b "main.Any", [fAny], [(b "Any", fAny.ty)]⟩
    | 9 => ⟨b "main.Embeds", [fVal, fBase3], [(b "Val", .str), (b "Base", .struct 2)]⟩
    | 10 => ⟨b "main.PEmbeds", [fPBase], [(b "PBase", .ptr (.struct 2))]⟩
    | 11 => ⟨b "main.Number", [fld "N" "n,label" (.leaf 0)], [(b "N", .leaf 0)]⟩
    | 12 => ⟨b "main.Names", [fld "Names" "names,optional" (.ptr (.slice .str))], [(b "Names", .ptr (.slice .str))]⟩
    | 13 => ⟨b "main.Lists", [fld "Lists" "lists,block" (.slice (.ptr (.slice .str)))], [(b "Lists", .slice (.ptr (.slice .str)))]⟩
    | 14 => ⟨b "main.Table", [fld "Table" "table,block" (.map .str (.ptr (.slice .str)))], [(b "Table", .map .str (.ptr (.slice .str)))]⟩
    | n => env2.struct n
  impl _ _ := false
  name _ := b "?"

/-- `Base` and `PBase` are embedded; generic data are `{}`. -/
def pe3 : PExt := { pe with anon := fun f => f.name = b "Base" || f.name = b "PBase", enc := fun _ _ => .ok (b "{}"), embedded := 1 }
def pe3Rev : PExt := { pe3 with ord := fun _ l => l.reverse }

def mixed : Fields := [(b "Any", .map [(b "k", .ref 2 [(b "Val", .str (b "1"))]), (b "l", .leaf 3)])]

def smallStruct : Fields :=
  [(b "Name", .str (b "n")), (b "Items", .slice [one "a" "1", one "c" "2"]), (b "Map", .map [(b "k", .inst 2 [(b "Val", .str (b "4"))])]),
   (b "Pairs", .map2 [((b "p", b "q"), .ref 2 [(b "Val", .str (b "3"))])]), (b "One", .leaf 0)]

theorem small_small : (Val.ref 3 smallStruct).small := by
  simp [smallStruct, one, Val.small, smallF, smallL, smallP]

end Demo

/-- **C73 is violated.** Blocks for a map are in the order of the iteration. -/
theorem C73_violated : (∀ p l, (Demo.peRev.ord p l).Perm l) ∧ SameText Demo.pe Demo.peRev ∧
    marshalVal Demo.env Demo.pe (.ref 3 Demo.fullStruct) ≠ marshalVal Demo.env Demo.peRev (.ref 3 Demo.fullStruct) := by
  refine ⟨fun _ l => l.reverse_perm, ⟨rfl, rfl, rfl, rfl, rfl, rfl⟩, ?_⟩
  intro h
  have h := congrArg (fun r => match r with | .ok t => (t.drop 84).head? | .error _ => none) h
  revert h
  decide +kernel

/-- **C73 is violated: the form.** With a struct and another value in a map of interfaces, the first key decides whether there
are blocks, or an argument. -/
theorem C73_violated_form : (∀ p l, (Demo.pe3Rev.ord p l).Perm l) ∧ SameText Demo.pe3 Demo.pe3Rev ∧
    marshalVal Demo.env3 Demo.pe3 (.ref 8 Demo.mixed) = .ok (b "  any \"k\" {\n    val = \"1\"\n  }") ∧
    marshalVal Demo.env3 Demo.pe3Rev (.ref 8 Demo.mixed) = .ok (b "  any {}") :=
  ⟨fun _ l => l.reverse_perm, ⟨rfl, rfl, rfl, rfl, rfl, rfl⟩, rfl, rfl⟩

-- `C73_partial` for a struct with maps of one entry.
example : marshalVal Demo.env Demo.pe (.ref 3 Demo.smallStruct) = marshalVal Demo.env Demo.peRev (.ref 3 Demo.smallStruct) :=
  C73_partial (pe := Demo.pe) (pe' := Demo.peRev) ⟨rfl, rfl, rfl, rfl, rfl, rfl⟩ (fun _ _ => .refl _) (fun _ _ => .refl _) (fun _ l => l.reverse_perm) (fun _ l => l.reverse_perm)
    Demo.small_small

-- `C73_same_meaning`: the two texts of `C73_violated` are read back as the same struct.
example {t t' : Bytes} (ht : marshalVal Demo.env Demo.pe (.ref 3 Demo.fullStruct) = .ok t)
    (ht' : marshalVal Demo.env Demo.peRev (.ref 3 Demo.fullStruct) = .ok t') :
    ∃ doc doc', Hcl.parseConfig t = .ok doc ∧ Hcl.parseConfig t' = .ok doc' ∧ ∀ body body', Reads AnySrc doc body → Reads AnySrc doc' body' →
      (unmarshalSpec Demo.env Demo.ext 1 (some body) 3 (newFields Demo.env Demo.ext 3) none ⟨[], Demo.ref0⟩ none []).target =
        (unmarshalSpec Demo.env Demo.ext 1 (some body') 3 (newFields Demo.env Demo.ext 3) none ⟨[], Demo.ref0⟩ none []).target :=
  C73_same_meaning (pe := Demo.pe) (pe' := Demo.peRev) (fun _ _ => .refl _) (fun _ _ => .refl _) (fun _ _ => .refl _) Demo.zeroOk ⟨by simp, by simp, by simp⟩ (by simp)
    Demo.canonical (.inl rfl) Demo.full_writable ⟨fun _ => rfl, fun h => absurd rfl h⟩ (by omega) ⟨rfl, rfl, rfl, rfl, rfl, rfl⟩
    (fun _ l => l.reverse_perm) (fun _ l => l.reverse_perm) ht ht'

/-- **C74 is violated.** `Marshal` panics for a nil pointer in a map, a nil pointer to an embedded struct, a field that comes again
in an embedded struct, a label that is not a string, a slice in a map of interfaces that has a struct first, a pointer to a slice of strings that is not
empty, and pointers to slices in a slice or map. -/
theorem C74_violated :
    marshalVal Demo.env2 Demo.pe (.ref 4 [(b "Box", .map [(b "k", .leaf 0)])]) = .error .panic ∧
    marshalVal Demo.env3 Demo.pe3 (.ref 10 [(b "PBase", .leaf 0)]) = .error .panic ∧
    marshalVal Demo.env3 Demo.pe3 (.ref 9 [(b "Val", .str (b "1")), (b "Base", .inst 2 [(b "Val", .str (b "2"))])]) = .error .panic ∧
    marshalVal Demo.env3 Demo.pe3 (.ref 11 [(b "N", .leaf 5)]) = .error .panic ∧
    marshalVal Demo.env3 Demo.pe3 (.ref 8 [(b "Any", .map [(b "k", .ref 2 [(b "Val", .str (b "1"))]), (b "l", .slice [])])]) = .error .panic ∧
    marshalVal Demo.env3 Demo.pe3 (.ref 12 [(b "Names", .slice [.str (b "x")])]) = .error .panic ∧
    marshalVal Demo.env3 Demo.pe3 (.ref 13 [(b "Lists", .slice [.slice [.str (b "x")]])]) = .error .panic ∧
    marshalVal Demo.env3 Demo.pe3 (.ref 14 [(b "Table", .map [(b "k", .slice [.str (b "x")])])]) = .error .panic :=
  ⟨rfl, rfl, rfl, rfl, rfl, rfl, rfl, rfl⟩

namespace Demo

theorem names_ok {f : Fld} (hf : f ∈ [fName, fItems, fMap, fPairs, fOne, fId, fVal]) : ∀ c ∈ f.name, c ≠ 44 ∧ isSpace c = false := by
  simp only [List.mem_cons, List.not_mem_nil, or_false] at hf
  rcases hf with rfl | rfl | rfl | rfl | rfl | rfl | rfl <;> decide +kernel

theorem collOk {ty : Ty} (h : ∀ t, ty ≠ .ptr t) {v : Val} : CollOk ty v := by
  rintro e (h' | ⟨k, h'⟩)
  · exact absurd h' (h _)
  · exact absurd h' (h _)

theorem tame1 (i v : String) : Tame env pe 1 1 [(b "Id", .str (b i)), (b "Val", .str (b v))] := by
  refine ⟨by decide +kernel, fun f hf _ => ?_⟩
  have hf' : f = fId ∨ f = fVal := by simpa [env, written, pe] using hf
  refine ⟨names_ok (by rcases hf' with rfl | rfl <;> simp), by simp [pe], fun w hw => ?_⟩
  rcases hf' with rfl | rfl
  · cases hw; exact ⟨fun _ => ⟨rfl, _, rfl⟩, collOk (by rintro _ ⟨⟩), trivial, trivial⟩
  · cases hw; exact ⟨fun _ => ⟨rfl, _, rfl⟩, collOk (by rintro _ ⟨⟩), trivial, trivial⟩

theorem tame2 (v : String) : Tame env pe 1 2 [(b "Val", .str (b v))] := by
  refine ⟨by decide +kernel, fun f hf _ => ?_⟩
  have hf' : f = fVal := by simpa [env, written, pe] using hf
  subst hf'
  refine ⟨names_ok (by simp), by simp [pe], fun w hw => ?_⟩
  cases hw; exact ⟨fun _ => ⟨rfl, _, rfl⟩, collOk (by rintro _ ⟨⟩), trivial, trivial⟩

theorem full_tame : Tame env pe 2 3 fullStruct := by
  refine ⟨by decide +kernel, fun f hf _ => ?_⟩
  have hf' : f = fName ∨ f = fItems ∨ f = fMap ∨ f = fPairs ∨ f = fOne := by simpa [env, written, pe] using hf
  refine ⟨names_ok (by rcases hf' with rfl | rfl | rfl | rfl | rfl <;> simp), by simp [pe], fun w hw => ?_⟩
  rcases hf' with rfl | rfl | rfl | rfl | rfl
  · cases hw; exact ⟨fun h => absurd h (by decide +kernel), collOk (by rintro _ ⟨⟩), trivial, trivial⟩
  · cases hw
    refine ⟨fun h => absurd h (by decide +kernel), collOk (by rintro _ ⟨⟩), trivial, ?_⟩
    intro l hl x hx
    cases hl
    simp only [List.mem_cons, List.not_mem_nil, or_false] at hx
    rcases hx with rfl | rfl <;> exact tame1 _ _
  · cases hw
    refine ⟨fun h => absurd h (by decide +kernel), collOk (by rintro _ ⟨⟩), trivial, ?_, fun m hm => by cases hm⟩
    intro m hm x hx
    cases hm
    simp only [List.map_cons, List.map_nil, List.mem_cons, List.not_mem_nil, or_false] at hx
    rcases hx with rfl | rfl <;> exact ⟨tame2 _, fun t ht => by simp, fun h => by cases h⟩
  · cases hw
    refine ⟨fun h => absurd h (by decide +kernel), collOk (by rintro _ ⟨⟩), trivial, fun m hm => (by cases hm), ?_⟩
    intro m hm x hx
    cases hm
    simp only [List.map_cons, List.map_nil, List.mem_cons, List.not_mem_nil, or_false] at hx
    subst hx
    exact ⟨tame2 _, fun t ht => by simp, fun h => by cases h⟩
  · cases hw; exact ⟨fun h => absurd h (by decide +kernel), (by rintro e (h | ⟨k, h⟩) <;> cases h), trivial, trivial⟩

end Demo

-- `C74_partial` for a struct with all kinds of fields.
example : marshalVal Demo.env Demo.pe (.ref 3 Demo.fullStruct) ≠ .error .panic :=
  C74_partial (by simp [Demo.pe]) (.inl rfl) Demo.full_tame

end Verif.HclS
