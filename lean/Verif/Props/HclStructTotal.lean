import Verif.Props.HclStructMore
import Verif.Lemmas.HclStructTotal
/-!
# Decoding HCL into a struct: what is refused, when it ends, and objects in attributes
-/
set_option linter.unusedSimpArgs false

namespace Verif.HclS
open Tree (Heap)
open Hcl (Cty Expr)
open Det (Cls CVal KeyTy insertK ltB)

variable {env : Env} {ext : Ext} {root n node cls : Nat} {path : List Bytes} {st st' : St} {fs fs' : Fields}
  {obj : List (Bytes × CVal)} {labels : List Bytes} {body : Body} {f : Fld}

/-! ## What is refused -/

/-- **C67, partial.** After a successful call every block of the document and every attribute has a field, unless the attribute
is null. -/
theorem C67_partial (hord : ∀ p l, (ext.ord p l).Perm l)
    (hrun : decode env ext root (n + 1) path st node cls fs obj labels body = (fs', .ok st')) :
    (∀ x ∈ body.blocks, ∃ f ∈ flat env n (env.struct cls).fields, f.tag = x.1) ∧
    ∀ k a, GoMap.get? body.attrs k = some a → (∃ f ∈ flat env n (env.struct cls).fields, f.tag = k) ∨
      ∃ vars, evalE ext vars a.expr = .ok .null := by
  obtain ⟨p, hp, _⟩ := decode_ok hrun
  exact prepare_strict hord hp

example : (Demo.outcome (Demo.run Demo.ext [] Demo.doc)).2 = none := rfl

/-- **C67 is violated**: an attribute that is null needs no field. -/
theorem C67_violated :
    Demo.outcome (Demo.run Demo.ext [] (.mk [(b "zzz", ⟨.ident (b "null"), []⟩)] [])) = (Demo.blank, none) := rfl

/-- **C63, partial.** A document with a block or an attribute that has no field, or without an attribute that is required, is
refused, and the target is as before.  (What is wrong in a nested block is found only after the target has been changed.) -/
theorem C63_partial (hord : ∀ p l, (ext.ord p l).Perm l) (hd : DistinctNames env n cls) (hw : Wrong env ext n cls obj body) :
    ∃ e, decode env ext root (n + 1) path st node cls fs obj labels body = (fs, .error e) := by
  cases hp : prepare env ext n root st node cls obj path body with
  | error e => exact ⟨e, by simp only [decode, decodeStruct, hp]⟩
  | ok p =>
    exfalso
    cases hw with
    | block hx hno =>
      obtain ⟨f, hf, ht⟩ := (prepare_strict hord hp).1 _ hx
      exact hno f hf ht
    | attr ha hnull hno =>
      rcases (prepare_strict hord hp).2 _ _ ha with ⟨f, hf, ht⟩ | ⟨vars, hv⟩
      · exact hno f hf ht
      · exact hnull vars hv
    | missing hm hf hreq hty hspec hno =>
      refine hno (prepare_required hord hd hm hf hspec ?_ ?_ hp)
      · intro lf
        rcases hty with h | ⟨i, h⟩ <;> simp only [LF.addTagged, h, Ty.deref]
      · rcases hty with h | ⟨i, h⟩ <;> simp [required, h, hreq]

example : Wrong Demo.env Demo.ext 1 0 [] (.mk [Demo.str "name" "n", Demo.str "zzz" "1"] []) :=
  .attr (k := b "zzz") rfl (fun vars h => by cases h) (by
    have : ∀ f ∈ flat Demo.env 1 (Demo.env.struct 0).fields, f.tag ≠ b "zzz" := by decide +kernel
    exact this)

example : Demo.outcome (Demo.run Demo.ext [] (.mk [Demo.str "name" "n", Demo.str "zzz" "1"] [])) = (Demo.blank, some .err) := rfl

/-! ## Termination -/

/-- **C66, partial.** If no struct type contains itself by fields without tag (`rank` counts the nesting, at most `top`), then
decoding ends: there is a bound on the nesting of calls, the depth of the document plus `top`, within which it succeeds,
fails or panics. -/
theorem C66_partial {rank : Nat → Nat} {top d n cls : Nat} {target : Fields} {spec : Option (List (Bytes × CVal))} {root : Option Nat}
    (hlt : ∀ c c', Embeds env c c' → rank c' < rank c) (htop : ∀ c, rank c ≤ top) (hext : Ends ext) (hdepth : Depth ext d body)
    (hn : d + top ≤ n + 1) : (unmarshalSpec env ext n (some body) cls target spec st root labels).outcome ≠ .error .hang := by
  generalize hd : defaultTree st.heap root = t
  obtain ⟨h, r⟩ := t
  simp only [unmarshalSpec, hd]
  have := decode_ends (root := r) hext ⟨hlt, htop⟩ hn [] ⟨h, st.ref⟩ r cls target (spec.getD []) labels body hdepth
  generalize decode env ext r (n + 1) [] ⟨h, st.ref⟩ r cls target (spec.getD []) labels body = res at this
  obtain ⟨fs, out⟩ := res
  cases out with
  | ok st1 => simp
  | error e =>
    intro hh
    apply this
    cases hh
    rfl

theorem Demo.ends : Ends Demo.ext where
  eval _ _ h := by cases h
  leaf _ v h := by cases v <;> cases h
  attr _ _ _ _ h := by cases h
  block _ _ _ _ h := by cases h

/-- `type Outer struct { Inner }` with `type Inner struct { Val string }`. -/
def Demo.embedEnv : Env where
  struct
    | 0 => ⟨b "main.Outer", [⟨b "Inner", true, [], .struct 1⟩], [(b "Val", .str)]⟩
    | _ => ⟨b "main.Inner", [Demo.fVal], [(b "Val", .str)]⟩
  impl _ _ := false
  name _ := b "?"

example : (∀ c c', Embeds Demo.embedEnv c c' → (if c' = 0 then 1 else 0) < (if c = 0 then 1 else 0)) ∧ Embeds Demo.embedEnv 0 1 ∧
    Depth Demo.ext 1 (Demo.leaf "x") := by
  refine ⟨?_, ⟨_, List.mem_singleton.2 rfl, rfl, by decide +kernel, rfl⟩, .mk ?_ ?_⟩
  · intro c c' h
    obtain ⟨f, hf, _, ht, hc⟩ := h
    rcases c with _ | c
    · simp only [Demo.embedEnv, List.mem_singleton] at hf
      subst hf
      cases hc
      decide
    · simp only [Demo.embedEnv, List.mem_singleton] at hf
      subst hf
      exact absurd ht (by decide +kernel)
  · intro a ha blk hblk
    simp only [List.mem_singleton] at ha
    subst ha
    cases hblk
  · intro x hx; cases hx

example : GoMap.get? (unmarshalSpec Demo.embedEnv Demo.ext 1 (some (Demo.leaf "x")) 0 [(b "Val", .str [])] none ⟨[], []⟩ none []).target (b "Val") =
    some (.str (b "x")) := rfl

/-- `type Node struct { Val string; Next *Node }`, only `Val` having a tag. -/
def Demo.loopEnv : Env where
  struct _ := ⟨b "main.Node", [Demo.fVal, ⟨b "Next", true, [], .ptr (.struct 0)⟩], [(b "Val", .str), (b "Next", .ptr (.struct 0))]⟩
  impl _ _ := false
  name _ := b "?"

theorem Demo.loop_step (ext : Ext) (deep) (lf : LF) (h1 : GoMap.get? lf.obj (b "Next") = none) (h2 : GoMap.get? lf.obj (b "Val") = none)
    (hdeep : ∀ lf : LF, GoMap.get? lf.obj (b "Next") = none → GoMap.get? lf.obj (b "Val") = none →
      deep (Demo.loopEnv.struct 0).fields lf = .error .hang) :
    loopList Demo.loopEnv ext [] deep (Demo.loopEnv.struct 0).fields lf = .error .hang := by
  have t1 : Demo.fVal.tag ≠ b "-" ∧ ¬ (b ",-").isSuffixOf Demo.fVal.tag ∧ Demo.fVal.tag ≠ [] := by decide +kernel
  have t2 : lower Demo.fVal.what ≠ b "label" := by decide +kernel
  have t3 : Demo.fVal.name = b "Val" := rfl
  have t4 : Demo.fVal.upper = true := rfl
  have t5 : ∀ lf : LF, lf.addTagged Demo.loopEnv ext Demo.fVal = { lf with news := lf.news ++ [Demo.fVal] } := fun _ => rfl
  have u0 : (Demo.loopEnv.struct 0).fields = [Demo.fVal, ⟨b "Next", true, [], .ptr (.struct 0)⟩] := rfl
  have u1 : (⟨b "Next", true, [], .ptr (.struct 0)⟩ : Fld).tag = [] := by decide +kernel
  have u2 : lower (⟨b "Next", true, [], .ptr (.struct 0)⟩ : Fld).what ≠ b "label" := by decide +kernel
  have u3 : ([] : Bytes) ≠ b "-" ∧ ¬ (b ",-").isSuffixOf ([] : Bytes) := by decide +kernel
  rw [u0, loopList, if_neg (by simp [t4]), if_neg (by simp), if_neg t2, if_neg (by simp [t1.1, t1.2.1]),
    if_neg (by simp [t3, h2]), if_neg t1.2.2, t5, loopList, if_neg (by simp), if_neg (by simp), if_neg u2,
    if_neg (by rw [u1]; simp [u3.1, u3.2]), if_neg (by simp [h1]), if_pos u1]
  simp only [Ty.structOf]
  rw [hdeep { lf with news := lf.news ++ [Demo.fVal] } h1 h2]

theorem Demo.loop_hangs (ext : Ext) : ∀ (n : Nat) (lf : LF), GoMap.get? lf.obj (b "Next") = none → GoMap.get? lf.obj (b "Val") = none →
    loopFields Demo.loopEnv ext [] n (Demo.loopEnv.struct 0).fields lf = .error .hang
  | 0, lf, h1, h2 => Demo.loop_step ext _ lf h1 h2 fun _ _ _ => rfl
  | n + 1, lf, h1, h2 => Demo.loop_step ext _ lf h1 h2 fun lf h1 h2 => Demo.loop_hangs ext n lf h1 h2

/-- **C66 is violated**: for a struct type that contains a pointer to itself in a field without tag `loopFields` calls itself
without end; here for the empty document, whatever bound is put on the nesting of calls. -/
theorem C66_violated (ext : Ext) (hord : ∀ p l, (ext.ord p l).Perm l) (n : Nat) (target : Fields) (st : St) :
    (unmarshalSpec Demo.loopEnv ext n (some (.mk [] [])) 0 target none st none []).outcome = .error .hang := by
  generalize hd : defaultTree st.heap none = t
  obtain ⟨h, r⟩ := t
  have hl : ∀ ref, loopFields Demo.loopEnv ext [] n (Demo.loopEnv.struct 0).fields ⟨[], [], [], [], [], ref⟩ = .error .hang :=
    fun ref => Demo.loop_hangs _ n _ rfl rfl
  have hp : prepare Demo.loopEnv ext n r ⟨h, st.ref⟩ r 0 [] [] (.mk [] []) = .error .hang := by
    have ho : ∀ p, ext.ord p [] = [] := fun p => List.perm_nil.1 (hord p [])
    have hk : GoMap.keys ([] : List (Bytes × Attr)) = [] := rfl
    simp only [prepare, prelude, Body.attrs, Body.blocks, hk, ho, evalAttrs, addBlockNodes, nullKeys, List.filter_nil, List.map_nil, hl]
  simp only [unmarshalSpec, hd, Option.getD_none, decode, decodeStruct, hp]

/-! ## Objects in attributes -/

/-- **C65, partial.** A slice field can be given by an attribute, `items = [{ … }, { … }]`: one element per object, in order, the
text between the braces parsed and decoded like the body of a block without labels; the blocks of that type follow.
Assumed: one byte between the equal sign and the list, which is ignored, no braces between the objects, objects that are not
empty and contain no closing brace. -/
theorem C65_partial {ety : Ty} {c0 : Cls} {cs : List Cls} {a : Attr} {space : UInt8} {l : List (Bytes × Bytes)} {tail : Bytes}
    (hord : ∀ p l, (ext.ord p l).Perm l) (hd : DistinctNames env n cls)
    (hrun : decode env ext root (n + 1) path st node cls fs obj labels body = (fs', .ok st'))
    (hm : f ∈ (env.struct cls).fields) (hf : Decodes f) (hty : f.ty = .slice ety)
    (hone : ∀ g ∈ flat env n (env.struct cls).fields, g.tag = f.tag → g.name = f.name)
    (hspec : GoMap.get? obj f.name = some (.list (c0 :: cs))) (ha : GoMap.get? body.attrs f.tag = some a)
    (hex : (∃ es, a.expr = .tuple es) ∨ ∃ m, a.expr = .object m) (hsrc : a.src = space :: objectsText l tail) (hl0 : l ≠ [])
    (hsep : ∀ x ∈ l, (123 : UInt8) ∉ x.1) (htail : (123 : UInt8) ∉ tail) (hobj : ∀ x ∈ l, x.2 ≠ [] ∧ (125 : UInt8) ∉ x.2) :
    ∃ (vs : List Val) (s : Nat → St), GoMap.get? fs' f.name = some (.slice vs) ∧
      vs.length = l.length + (blocksOf body f.tag).length ∧
      (∀ k x v, l[k]? = some x → vs[k]? = some v → ∃ inner c out, ext.parse x.2 = some inner ∧
        BlockAs env ext root n node st f.tag ((c0 :: cs).getD k c0) [] inner (s k) (s (k + 1)) c out ∧ Holds env ety c out v) ∧
      ∀ k ls inner v, (blocksOf body f.tag)[k]? = some (ls, inner) → vs[l.length + k]? = some v →
        ∃ c out, BlockAs env ext root n node st f.tag ((c0 :: cs).getD (l.length + k) c0) ls inner (s (l.length + k)) (s (l.length + k + 1)) c out ∧
          Holds env ety c out v := by
  obtain ⟨p, hp, hr⟩ := decode_ok hrun
  obtain ⟨h1, h2, hpre, _, _, _⟩ := prepare_ok hp
  obtain ⟨h3, he, _, hl⟩ := prelude_ok hpre
  have hnull : f.tag ∉ nullKeys p.vals := by
    intro hx
    obtain ⟨e, he', hek⟩ := List.mem_map.1 hx
    obtain ⟨hin, hnul⟩ := List.mem_filter.1 he'
    obtain ⟨a', vars, ha', hev⟩ := evalAttrs_value he f.tag e.2 (by rw [← hek]; exact hin)
    rw [ha] at ha'; cases ha'
    rcases hex with ⟨es, hes⟩ | ⟨m, hm'⟩
    · rw [hes, evalE] at hev
      obtain ⟨w, _, hw⟩ := map_ok hev
      rw [← hw] at hnul; cases hnul
    · rw [hm', evalE] at hev
      obtain ⟨w, _, hw⟩ := map_ok hev
      rw [← hw] at hnul; cases hnul
  have hnd := found_nodup hd hl
  obtain ⟨ho, hv⟩ := loopFields_spec hm hf hnull hspec hl
  have hother : ∀ {l' : List Fld}, (∀ g ∈ l', g ∈ p.lf.all ∧ g.name ≠ f.name) → hasTag l' f.tag = false := by
    intro l' hl'
    by_contra hx
    obtain ⟨g, hg, ht⟩ := List.any_eq_true.1 (by simpa using hx : hasTag l' f.tag = true)
    obtain ⟨l2, hp2, hs2⟩ := loopFields_found n _ _ _ hl
    have hp2 : p.lf.all.Perm l2 := by simpa [LF.all] using hp2
    exact (hl' g hg).2 (hone g (hs2.subset (hp2.mem_iff.1 (hl' g hg).1)) (by simpa using ht))
  have hsplit : ∀ g, g ∈ p.lf.decs ∨ g ∈ p.lf.labels → g ∈ p.lf.all ∧ g.name ≠ f.name := by
    intro g hg
    refine ⟨by rcases hg with hg | hg <;> simp [LF.all, hg], fun hx => ?_⟩
    simp only [LF.all, List.map_append] at hnd
    have hfo : f.name ∈ p.lf.oris.map Fld.name := List.mem_map.2 ⟨f, ho, rfl⟩
    rcases hg with hg | hg
    · exact (List.nodup_append.1 hnd).2.2 f.name (by simp [hfo]) g.name (List.mem_map.2 ⟨g, hg, rfl⟩) hx.symm
    · exact (List.nodup_append.1 (List.nodup_append.1 hnd).1).2.2 g.name
        (List.mem_append_left _ (List.mem_map.2 ⟨g, hg, rfl⟩)) f.name hfo hx
  have hroute : route (nullKeys p.vals) p.lf f.tag = .ori := by
    have hot : hasTag p.lf.oris f.tag = true := List.any_eq_true.2 ⟨f, ho, by simp⟩
    rw [route, if_neg hnull, hother fun g hg => hsplit g (Or.inl hg), hother fun g hg => hsplit g (Or.inr hg), hot]
    simp
  have hk : f.tag ∈ p.vals.map Prod.fst := by
    rw [evalAttrs_keys he]
    exact (hord _ _).mem_iff.2 (by
      by_contra hx
      rw [GoMap.get?_eq_none.2 hx] at ha; cases ha)
  obtain ⟨cv, hcv⟩ : ∃ v, GoMap.get? p.vals f.tag = some v := by
    cases hg : GoMap.get? p.vals f.tag with
    | none => exact absurd hk (GoMap.get?_eq_none.1 hg)
    | some v => exact ⟨v, rfl⟩
  have hpieces : attrBlocks ext a.src = l.map fun x => ⟨[], ext.parse x.2⟩ := by
    rw [attrBlocks, hsrc, List.drop_one, List.tail_cons, objectPieces, piecesN_objects hsep hobj htail _ (Nat.le_refl _), List.map_map]
    rfl
  have hblks : oriBlocks ext (nullKeys p.vals) p.lf body p.vals f.tag =
      (l.map fun x => ⟨[], ext.parse x.2⟩) ++ (blocksOf body f.tag).map fun x => ⟨x.1, some x.2⟩ := by
    simp only [oriBlocks, routed, hroute, if_pos, hcv, ha, hpieces, blocksOf, List.map_map]
    rfl
  obtain ⟨fs1, st1, fs2, st2, hs, hfin, hini, l', hsub, hbef⟩ := oris_final hnd ho hr
  have hlat := steps_later hp (decode_rel (laterRel env ext root) n) hsub hbef
  simp only [oriStep, hblks, hv, Option.getD_some] at hs
  cases hcase : (l.map fun x => (⟨[], ext.parse x.2⟩ : Blk)) ++ (blocksOf body f.tag).map fun x => ⟨x.1, some x.2⟩ with
  | nil => cases l <;> simp at hl0 hcase
  | cons blk blks =>
    rw [hcase] at hs
    simp only at hs
    rw [← hcase] at hs
    split at hs
    · cases hs
    · rename_i hov
      simp only [oriValue, hty] at hov
      obtain ⟨⟨vs, st3⟩, _, hr'⟩ := map_ok hov
      cases hr'
    · rename_i w st3 hov
      simp only [oriValue, hty] at hov
      obtain ⟨⟨vs, st4⟩, hll, hr'⟩ := map_ok hov
      cases hr'
      have hset : GoMap.get? fs2 f.name = some (.slice vs) := by
        cases hset : setF f.name (.slice vs) fs1 with
        | error e => rw [hset] at hs; cases hs
        | ok r => rw [hset] at hs; cases hs; rw [get?_setF hset, if_pos rfl]
      obtain ⟨hlen, s, rfl, _, hel⟩ := listLoop_ok hll
      have hch := elems_later hlat hlen hel
      refine ⟨vs, s, by rw [hfin, hset], by simpa using hlen, ?_, ?_⟩
      · intro k x v hx hvk
        have hklt : k < l.length := (List.getElem?_eq_some_iff.1 hx).1
        obtain ⟨body', c, out, hbody, hba, hh⟩ := hel k ⟨[], ext.parse x.2⟩ v (by
          rw [List.getElem?_append_left (by simpa using hklt)]; simp [hx]) hvk
        exact ⟨body', c, out, hbody, hba.block (hch _ (lt_of_get? hvk)), hh⟩
      · intro k ls inner v hb hvk
        obtain ⟨body', c, out, hbody, hba, hh⟩ := hel (l.length + k) ⟨ls, some inner⟩ v (by
          rw [List.getElem?_append_right (by simp)]; simp [hb]) hvk
        cases hbody
        exact ⟨c, out, hba.block (hch _ (lt_of_get? hvk)), hh⟩

/-- A parser that knows one text. -/
def Demo.extP : Ext := { Demo.ext with parse := fun s => if s = b " val = \"1\" " then some (Demo.leaf "1") else none }

/-- The attribute `items` with this source. -/
def Demo.objs (src : String) : Bytes × Attr := (b "items", ⟨.tuple [.object [(.ident (b "val"), .str (b "1"))]], b src⟩)

def Demo.itemsSpec : List (Bytes × CVal) := [(b "Items", .list [.mk (b "Item") []])]

-- ` [{ val = "1" }, { val = "1" }]`, and a block.
example : GoMap.get? (Demo.run Demo.extP Demo.itemsSpec (.mk [Demo.objs " [{ val = \"1\" }, { val = \"1\" }]"]
    [(b "items", [b "a"], Demo.leaf "2")])).1 (b "Items") =
    some (.slice [.ref 1 [(b "Id", .str []), (b "Val", .str (b "1"))], .ref 1 [(b "Id", .str []), (b "Val", .str (b "1"))],
      .ref 1 [(b "Id", .str (b "a")), (b "Val", .str (b "2"))]]) := rfl

example : b " [{ val = \"1\" }, { val = \"1\" }]" =
    32 :: objectsText [(b "[", b " val = \"1\" "), (b ", ", b " val = \"1\" ")] (b "]") := by decide +kernel

/-- **C65 is violated**: an empty object is dropped; a closing brace inside a string ends the object, which then does not
parse; without a space behind the equal sign the brace of a single object is lost, and with it the object. -/
theorem C65_violated :
    Demo.outcome (Demo.run Demo.extP Demo.itemsSpec (.mk [(b "items", ⟨.tuple [.object []], b " [{}]"⟩)] [])) = (Demo.blank, none) ∧
    Demo.outcome (Demo.run { Demo.ext with parse := fun s => if s = b " val = \"}\" " then some (Demo.leaf "}") else none } Demo.itemsSpec
      (.mk [(b "items", ⟨.tuple [.object [(.ident (b "val"), .str (b "}"))]], b " [{ val = \"}\" }]"⟩)] [])) = (Demo.blank, some .err) ∧
    Demo.outcome (Demo.run Demo.extP Demo.itemsSpec
      (.mk [(b "items", ⟨.object [(.ident (b "val"), .str (b "1"))], b "{ val = \"1\" }"⟩)] [])) = (Demo.blank, none) := ⟨rfl, rfl, rfl⟩

end Verif.HclS
