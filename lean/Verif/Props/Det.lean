import Verif.Lemmas.DetRaw
set_option linter.unusedSimpArgs false
/-!
# C33 - C37: what `JsonUnmarshal` stores into the fields

`decode` is `JsonUnmarshal` with a specification, at any nesting depth: `ref` is the `ref`
argument of the call and `mergeReg` the registry it works with.
-/
namespace Verif.Det

/-! ## An example: shapes -/

/-- Struct types `Circle` (0), `Square` (1) and `Picture` (2); interface `Shape` (0). -/
def exEnv : Env where
  struct
    | 0 => ⟨b "Circle", b "geo", [.mk (b "Radius") true (b "radius") (.leaf 0) none]⟩
    | 1 => ⟨b "Square", b "geo", [.mk (b "Side") true (b "side") (.leaf 0) none]⟩
    | 2 => ⟨b "Picture", b "geo", [.mk (b "Name") true (b "name") (.leaf 0) none,
        .mk (b "Shapes") true (b "shapes") (.slice (.iface 0)) none,
        .mk (b "ByName") true (b "by_name") (.map .str (.iface 0)) none,
        .mk (b "ByPair") true (b "by_pair") (.map .str2 (.iface 0)) none,
        .mk (b "Main") true (b "main") (.iface 0) none]⟩
    | _ => ⟨[], [], []⟩
  iface _ := ⟨b "Shape", fun c => c == 0 || c == 1⟩
  under _ := .leaf 0

/-- `encoding/json` for the example: a leaf value is the length of the text. -/
def exExt : Ext where
  zero _ := .leaf 0
  leaf _ v j := match j with | .null => some v | .atom t => some (.leaf t.length) | _ => none
  plain t d := match d with
    | .obj m => (t.fields.map fun f =>
        match m.find? (fun e => e.1.length = f.1.length) with
        | some (_, .atom t) => (f.1, .leaf t.length)
        | _ => f, false)
    | .null => (t.fields, false)
    | _ => (t.fields, true)
  fold k := k
  structOf _ := true
  ord _ ks := ks

def exRef : Ref := [(b "Shape", .impls [some (.ptr (.struct 0)), some (.ptr (.struct 1))])]
def circle : Cls := .mk (b "Circle") []
def square : Cls := .mk (b "Square") []
def exSpec : Cls := .mk (b "Picture")
  [(b "Shapes", .list [circle, square]), (b "ByName", .map [(b "b", circle), (b "a", square)]),
   (b "ByPair", .map2 [(b "q", [(b "x", circle)]), (b "p", [(b "y", square)])]), (b "Main", .single square)]
def exTarget : Inst := ⟨2, fresh exEnv exExt 2⟩
def exDoc : J := .obj [
  (b "name", .atom (b "abc")),
  (b "shapes", .arr [.obj [(b "radius", .atom (b "1"))], .obj [(b "side", .atom (b "22"))], .null]),
  (b "by_name", .obj [(b "a", .null), (b "z", .obj [])]),
  (b "by_pair", .obj [(b "q", .obj [(b "x", .null), (b "w", .null)])]),
  (b "main", .obj [(b "side", .atom (b "333"))])]
def exResult : Inst := ⟨2, [
  (b "Name", .leaf 3),
  (b "Shapes", .slice [.ref 0 [(b "Radius", .leaf 1)], .ref 1 [(b "Side", .leaf 2)], .ref 0 [(b "Radius", .leaf 0)]]),
  (b "ByName", .map [(b "a", .ref 1 [(b "Side", .leaf 0)]), (b "z", .ref 1 [(b "Side", .leaf 0)])]),
  (b "ByPair", .map2 [((b "q", b "w"), .ref 1 [(b "Side", .leaf 0)]), ((b "q", b "x"), .ref 0 [(b "Radius", .leaf 0)])]),
  (b "Main", .ref 1 [(b "Side", .leaf 3)])]⟩

theorem exDecode : decode exEnv exExt 9 exRef [] exTarget exSpec (some exDoc) = .ret exResult false := by
  rw [decode_eqN 2 (by simp [Cls.depth, CVal.depth, depthF, depthL, depthM, depthM2, exSpec, circle, square])]
  rfl

/-! ## C33 -/

/-- Without a specification, or with one that names no fields, the effect on the target and the
error are those of `json.Unmarshal`, whatever `ref` is (even one that type discovery could not
handle). -/
theorem C33_no_spec (env : Env) (ext : Ext) (fuel : Nat) (ref : Ref) (tgt : Inst) (dat : Doc) (name : Bytes) :
    jsonUnmarshal env ext fuel ref tgt none dat = plainUnmarshal ext tgt dat ∧
    jsonUnmarshal env ext fuel ref tgt (some (.mk name [])) dat
      = plainUnmarshal ext tgt dat := by
  refine ⟨rfl, ?_⟩
  simp only [jsonUnmarshal]
  rw [decode_eq]
  rfl

example : jsonUnmarshal exEnv exExt 0 [(b "x", .tmpl .bad)] ⟨0, fresh exEnv exExt 0⟩ none
    (some (.obj [(b "radius", .atom (b "12"))])) = .ret ⟨0, [(b "Radius", .leaf 2)]⟩ false := rfl

/-! ## C37: single fields -/

/-- A field specified by one class: it holds an instance of the class registered under that
name, with the content that decoding the field's JSON value alone into a fresh instance gives.
The value is a pointer to it when the field is a pointer or an interface, the struct itself when
the field is a struct. -/
theorem C37_single {env : Env} {ext : Ext} {fuel ref path tgt spec dat t'}
    (h : decode env ext fuel ref path tgt spec dat = .ret t' false)
    {i : Nat} {f : Fld} (hf : (loopFields (env.struct tgt.cls).fields)[i]? = some f)
    {s : Cls} (hs : GoMap.get? spec.fields f.name = some (.single s)) :
    ∃ reg m j c content p fields v,
      mergeReg env ext fuel ref tgt.cls = some reg ∧
      dat = some (.obj m) ∧
      (valuesOf ext (loopFields (env.struct tgt.cls).fields) i m).getLast? = some j ∧
      GoMap.get? reg s.name = some (.ptr c content) ∧
      decode env ext fuel reg.toRef p ⟨c, fresh env ext c⟩ s (some j) = .ret ⟨c, fields⟩ false ∧
      GoMap.get? t'.fields f.name = some v ∧
      ((v = .ref c fields ∧ Holds env f.ty c) ∨
        (v = .inst c fields ∧ env.resolve f.ty = .struct c)) := by
  have hne : spec.fields ≠ [] := by intro e; rw [e] at hs; simp [GoMap.get?] at hs
  obtain ⟨reg, m, hreg, hm, _, _, hfld⟩ := decode_ok hne h
  obtain ⟨raw, o, hraw, hv, hget⟩ := hfld i f hf
  have hk : rawKind env spec.fields f = .msg := by simp [rawKind, hs]
  rw [hk] at hraw
  have := rawFold_msg _ hraw
  subst this
  simp only [fieldValue, hs, Out.bind_ok, Out.ok.injEq] at hv
  obtain ⟨v, hv, rfl⟩ := hv
  simp only [handleSingleStruct, Out.bind_ok] at hv
  obtain ⟨inst, hel, hst⟩ := hv
  obtain ⟨c, content, fields, h1, h2, rfl⟩ := element_ok hel
  -- the document has a value for the field: nothing decodes from no document
  cases hj : (valuesOf ext (loopFields (env.struct tgt.cls).fields) i m).getLast? with
  | none => rw [hj] at h2; exact absurd h2 decode_none
  | some j =>
    rw [hj] at h2
    have hdat : dat = some (.obj m) := by
      unfold membersOf at hm
      split at hm
      · simp at hm; rw [hm]
      · simp at hm; subst hm; simp [valuesOf] at hj
      · simp at hm
    simp only at hst
    refine ⟨reg, m, j, c, content, _, fields, v, hreg, hdat, hj, h1, h2, by simpa using hget, ?_⟩
    split at hst
    · obtain ⟨ha, rfl⟩ := store_ok hst; exact Or.inl ⟨rfl, assignable_iff.1 ha⟩
    · obtain ⟨ha, rfl⟩ := store_ok hst; exact Or.inl ⟨rfl, assignable_iff.1 ha⟩
    · rename_i c' hc'
      split at hst
      · rename_i he; subst he
        simp only [Out.ok.injEq] at hst
        exact Or.inr ⟨hst.symm, hc'⟩
      · simp at hst
    · simp at hst

example : ∃ f, (loopFields (exEnv.struct exTarget.cls).fields)[4]? = some f ∧
    GoMap.get? exSpec.fields f.name = some (.single square) := ⟨_, rfl, rfl⟩

/-! ## C34: list fields -/

/-- A slice field specified by a list of classes, when the document gives it an array: one
element for every JSON element, in order, the `k`-th decoded alone with the `k`-th class of the
specification, or with the first class when there is no `k`-th. -/
theorem C34_list {env : Env} {ext : Ext} {fuel ref path tgt spec dat t'}
    (h : decode env ext fuel ref path tgt spec dat = .ret t' false)
    {i : Nat} {f : Fld} (hf : (loopFields (env.struct tgt.cls).fields)[i]? = some f)
    {specs : List Cls} (hs : GoMap.get? spec.fields f.name = some (.list specs))
    {et : Ty} (ht : env.resolve f.ty = .slice et)
    {m js} (hd : dat = some (.obj m))
    (hj : (valuesOf ext (loopFields (env.struct tgt.cls).fields) i m).getLast? = some (.arr js)) :
    ∃ reg vs, mergeReg env ext fuel ref tgt.cls = some reg ∧
      GoMap.get? t'.fields f.name = some (.slice vs) ∧ vs.length = js.length ∧
      ∀ k j, js[k]? = some j → ∃ s v, vs[k]? = some v ∧ DecodedAlone env ext fuel reg s j v ∧
        (specs[k]? = some s ∨ specs.length ≤ k ∧ specs[0]? = some s) := by
  have hne : spec.fields ≠ [] := by intro e; rw [e] at hs; simp [GoMap.get?] at hs
  obtain ⟨reg, m', hreg, hm, _, _, hfld⟩ := decode_ok hne h
  obtain ⟨raw, o, hraw, hv, hget⟩ := hfld i f hf
  subst hd
  simp only [membersOf, Option.some.injEq] at hm
  subst hm
  have hk : rawKind env spec.fields f = .list := by simp [rawKind, hs, ht]
  rw [hk] at hraw
  have := rawFold_list _ hraw
  subst this
  simp only [fieldValue, hs, Out.bind_ok, Out.ok.injEq] at hv
  obtain ⟨v, hv, rfl⟩ := hv
  unfold handleListOrMapStruct at hv
  split at hv
  · simp at hv
  · rename_i first rest
    simp only [ht, hj, listOf, Out.bind_ok, Out.ok.injEq] at hv
    obtain ⟨vs, hvs, rfl⟩ := hv
    obtain ⟨hl, hel⟩ := sliceLoop_ok hvs
    refine ⟨reg, vs, hreg, by simpa using hget, hl, fun k j hkj => ?_⟩
    obtain ⟨inst, v, e1, e2, e3⟩ := hel k j hkj
    obtain ⟨c, content, fields, h1, h2, rfl⟩ := element_ok e1
    obtain ⟨ha, rfl⟩ := store_ok e2
    refine ⟨_, _, e3, ⟨c, content, _, fields, h1, h2, rfl⟩, ?_⟩
    simp only [Nat.zero_add]
    cases hq : (first :: rest)[k]? with
    | some s => simp
    | none => right; exact ⟨List.getElem?_eq_none_iff.1 hq, by simp⟩

example : ∃ f et js, (loopFields (exEnv.struct exTarget.cls).fields)[1]? = some f ∧
    GoMap.get? exSpec.fields f.name = some (.list [circle, square]) ∧ exEnv.resolve f.ty = .slice et ∧
    (valuesOf exExt (loopFields (exEnv.struct exTarget.cls).fields) 1
      (match exDoc with | .obj m => m | _ => [])).getLast? = some (.arr js) ∧ js.length = 3 :=
  ⟨_, _, _, rfl, rfl, rfl, by rw [valuesOf_eq]; rfl, rfl⟩

/-- Without a value for the field (or with `null`) the slice is empty. -/
theorem C34_list_absent {env : Env} {ext : Ext} {fuel ref path tgt spec m t'}
    (h : decode env ext fuel ref path tgt spec (some (.obj m)) = .ret t' false)
    {i : Nat} {f : Fld} (hf : (loopFields (env.struct tgt.cls).fields)[i]? = some f)
    {specs : List Cls} (hs : GoMap.get? spec.fields f.name = some (.list specs))
    {et : Ty} (ht : env.resolve f.ty = .slice et)
    (hj : ∀ js, (valuesOf ext (loopFields (env.struct tgt.cls).fields) i m).getLast? ≠ some (.arr js)) :
    GoMap.get? t'.fields f.name = some (.slice []) := by
  have hne : spec.fields ≠ [] := by intro e; rw [e] at hs; simp [GoMap.get?] at hs
  obtain ⟨reg, m', hreg, hm, _, _, hfld⟩ := decode_ok hne h
  obtain ⟨raw, o, hraw, hv, hget⟩ := hfld i f hf
  simp only [membersOf, Option.some.injEq] at hm
  subst hm
  have hk : rawKind env spec.fields f = .list := by simp [rawKind, hs, ht]
  rw [hk] at hraw
  have := rawFold_list _ hraw
  subst this
  have hl : listOf [] (valuesOf ext (loopFields (env.struct tgt.cls).fields) i m).getLast? = [] := by
    unfold listOf
    split
    · rfl
    · rename_i l hl; exact absurd hl (hj l)
    · rfl
  simp only [fieldValue, hs, Out.bind_ok, Out.ok.injEq] at hv
  obtain ⟨v, hv, rfl⟩ := hv
  unfold handleListOrMapStruct at hv
  split at hv
  · simp at hv
  · simp only [ht, hl, sliceLoop, Out.bind_ok, Out.ok.injEq] at hv
    obtain ⟨vs, rfl, rfl⟩ := hv
    simpa using hget

example : ∀ js, (valuesOf exExt (loopFields (exEnv.struct exTarget.cls).fields) 1
    [(b "name", .null)]).getLast? ≠ some (.arr js) := by intro js h; rw [valuesOf_eq] at h; cases h

/-! ## C35: map fields -/

/-- A map field specified by a map of classes, when the document gives it one object: the keys
of the result are exactly those of the object, and every value is the (last) value of its key
decoded alone, with the class of its key or else the class of the smallest specified key. -/
theorem C35_map {env : Env} {ext : Ext} {fuel ref path tgt spec m t'}
    (hord : ∀ p ks, (ext.ord p ks).Perm ks)
    (h : decode env ext fuel ref path tgt spec (some (.obj m)) = .ret t' false)
    {i : Nat} {f : Fld} (hf : (loopFields (env.struct tgt.cls).fields)[i]? = some f)
    {specs : List (Bytes × Cls)} (hs : GoMap.get? spec.fields f.name = some (.map specs))
    {o} (ho : valuesOf ext (loopFields (env.struct tgt.cls).fields) i m = [.obj o]) :
    ∃ reg res, mergeReg env ext fuel ref tgt.cls = some reg ∧
      GoMap.get? t'.fields f.name = some (.map res) ∧
      (∀ key, (GoMap.get? res key).isSome ↔ key ∈ o.map Prod.fst) ∧
      ∀ key j, lastOf o key = some j → ∃ s v, ClassFor specs key s ∧
        GoMap.get? res key = some v ∧ DecodedAlone env ext fuel reg s j v := by
  have hne : spec.fields ≠ [] := by intro e; rw [e] at hs; simp [GoMap.get?] at hs
  obtain ⟨reg, m', hreg, hm, _, _, hfld⟩ := decode_ok hne h
  obtain ⟨raw, ov, hraw, hv, hget⟩ := hfld i f hf
  simp only [membersOf, Option.some.injEq] at hm
  subst hm
  have hk : rawKind env spec.fields f = .map := by simp [rawKind, hs]
  rw [hk, ho] at hraw
  simp [rawZero, rawSet] at hraw
  subst hraw
  simp only [fieldValue, hs, Out.bind_ok, Out.ok.injEq] at hv
  obtain ⟨v, hv, rfl⟩ := hv
  unfold handleMapStruct at hv
  split at hv
  · simp at hv
  · rename_i first hfirst
    split at hv
    · rename_i kt et ht
      simp only [Out.bind_ok, Out.ok.injEq] at hv
      obtain ⟨res, hres, rfl⟩ := hv
      have hp := hord (path ++ [f.name]) (mergeMembers [] o).keys
      have hnd : (mergeMembers ([] : GoMap Bytes J) o).keys.Nodup :=
        mergeMembers_nodup o (by simp [GoMap.keys])
      obtain ⟨_, h1, h2⟩ := mapLoop_ok _ (hp.nodup_iff.2 hnd) hres
      have hkeys : ∀ key, key ∈ (mergeMembers ([] : GoMap Bytes J) o).keys ↔ key ∈ o.map Prod.fst := by
        intro key
        rw [← GoMap.get?_isSome, mergeMembers_get, ← lastOf_isSome]
        simp [GoMap.get?]
      refine ⟨reg, res, hreg, by simpa using hget, ?_, ?_⟩
      · intro key
        by_cases hkm : key ∈ (mergeMembers ([] : GoMap Bytes J) o).keys
        · obtain ⟨_, v, _, _, hv⟩ := h2 key (hp.mem_iff.2 hkm)
          simp only [hv, Option.isSome_some, true_iff]
          exact (hkeys key).1 hkm
        · rw [h1 key (fun hc => hkm (hp.mem_iff.1 hc))]
          simp only [GoMap.get?, Option.isSome_none, Bool.false_eq_true, false_iff]
          exact fun hc => hkm ((hkeys key).2 hc)
      · intro key j hlast
        have hkm : key ∈ (mergeMembers ([] : GoMap Bytes J) o).keys :=
          (hkeys key).2 (lastOf_isSome.1 (by rw [hlast]; rfl))
        obtain ⟨inst, v, e1, e2, e3⟩ := h2 key (hp.mem_iff.2 hkm)
        rw [mergeMembers_get, hlast] at e1
        obtain ⟨c, content, fields, g1, g2, rfl⟩ := element_ok e1
        obtain ⟨ha, rfl⟩ := store_ok e2
        exact ⟨_, _, classFor_getD hfirst key, e3, c, content, _, fields, g1, by simpa using g2, rfl⟩
    · simp at hv

example : ∃ f o, (loopFields (exEnv.struct exTarget.cls).fields)[2]? = some f ∧
    GoMap.get? exSpec.fields f.name = some (.map [(b "b", circle), (b "a", square)]) ∧
    valuesOf exExt (loopFields (exEnv.struct exTarget.cls).fields) 2
      (match exDoc with | .obj m => m | _ => []) = [.obj o] ∧ o.length = 2 ∧
    ClassFor [(b "b", circle), (b "a", square)] (b "z") square :=
  ⟨_, _, rfl, rfl, by rw [valuesOf_eq]; rfl, rfl, Or.inr ⟨by decide, b "a", by simp, by decide⟩⟩

/-! ## C36: two-label map fields -/

/-- A map field specified by a two-level map, when the document gives it one object: the keys of
the result are exactly the pairs of an outer key and a key of its (last) inner object; every
value is decoded alone, with the class chosen by the inner key in the map chosen by the outer
key, or else with the class of the smallest inner key of the smallest outer key. -/
theorem C36_map2 {env : Env} {ext : Ext} {fuel ref path tgt spec m t'}
    (hord : ∀ p ks, (ext.ord p ks).Perm ks)
    (h : decode env ext fuel ref path tgt spec (some (.obj m)) = .ret t' false)
    {i : Nat} {f : Fld} (hf : (loopFields (env.struct tgt.cls).fields)[i]? = some f)
    {specs : List (Bytes × List (Bytes × Cls))}
    (hs : GoMap.get? spec.fields f.name = some (.map2 specs))
    {o} (ho : valuesOf ext (loopFields (env.struct tgt.cls).fields) i m = [.obj o]) :
    ∃ reg res, mergeReg env ext fuel ref tgt.cls = some reg ∧
      GoMap.get? t'.fields f.name = some (.map2 res) ∧
      (∀ key0 key1, (GoMap.get? res (key0, key1)).isSome ↔
        ∃ oi, lastOf o key0 = some (.obj oi) ∧ key1 ∈ oi.map Prod.fst) ∧
      ∀ key0 key1 oi j, lastOf o key0 = some (.obj oi) → lastOf oi key1 = some j →
        ∃ inner s v, ClassFor specs key0 inner ∧
          (GoMap.get? inner key1 = some s ∨
            key1 ∉ inner.map Prod.fst ∧ ∃ k0 m0 k1, (k0, m0) ∈ specs ∧ (∀ e ∈ specs, k0 ≤ e.1) ∧
              (k1, s) ∈ m0 ∧ ∀ e ∈ m0, k1 ≤ e.1) ∧
          GoMap.get? res (key0, key1) = some v ∧ DecodedAlone env ext fuel reg s j v := by
  have hne : spec.fields ≠ [] := by intro e; rw [e] at hs; simp [GoMap.get?] at hs
  obtain ⟨reg, m', hreg, hm, _, _, hfld⟩ := decode_ok hne h
  obtain ⟨raw, ov, hraw, hv, hget⟩ := hfld i f hf
  simp only [membersOf, Option.some.injEq] at hm
  subst hm
  have hk : rawKind env spec.fields f = .map2 := by simp [rawKind, hs]
  rw [hk, ho] at hraw
  have hkind : raw.HasKind .map2 := rawFold_kind _ hraw
  simp only [rawZero, rawSet, List.foldlM_cons, List.foldlM_nil, Option.bind_eq_bind,
    Option.bind_eq_some_iff, Option.map_eq_some_iff, Option.pure_def, Option.some.injEq] at hraw
  obtain ⟨r, ⟨l', hl', rfl⟩, rfl⟩ := hraw
  simp only [Raw.HasKind] at hkind
  -- lookups in the raw map
  have hraw0 : ∀ x, GoMap.get? (mergeMembers ([] : GoMap Bytes (GoMap Bytes J)) l') x
      = (lastOf o x).bind innerMap := by
    intro x
    rw [mergeMembers_get, (mapM_inner hl' x).1]
    cases (lastOf o x).bind innerMap <;> simp [GoMap.get?]
  have hrk : ∀ x, x ∈ (mergeMembers ([] : GoMap Bytes (GoMap Bytes J)) l').keys ↔ x ∈ o.map Prod.fst := by
    intro x
    rw [← GoMap.get?_isSome, mergeMembers_get, ← lastOf_isSome, ← (mapM_inner hl' x).2]
    simp [GoMap.get?]
  have hin : ∀ x y, y ∈ ((GoMap.get? (mergeMembers ([] : GoMap Bytes (GoMap Bytes J)) l') x).getD []).keys ↔
      ∃ oi, lastOf o x = some (.obj oi) ∧ y ∈ oi.map Prod.fst := by
    intro x y
    rw [hraw0]
    cases hlx : lastOf o x with
    | none => simp [GoMap.keys]
    | some jx =>
      cases jx with
      | obj oi =>
        simp only [Option.bind_some, innerMap, Option.getD_some, Option.some.injEq, J.obj.injEq,
          exists_eq_left']
        rw [← GoMap.get?_isSome, mergeMembers_get, ← lastOf_isSome]
        simp [GoMap.get?]
      | null => simp [innerMap, GoMap.keys]
      | atom t => simp [innerMap, GoMap.keys]
      | arr t => simp [innerMap, GoMap.keys]
  simp only [fieldValue, hs, Out.bind_ok, Out.ok.injEq] at hv
  obtain ⟨v, hv, rfl⟩ := hv
  unfold handleMap2Struct at hv
  split at hv
  · simp at hv
  · rename_i firstMap hfm
    split at hv
    · simp at hv
    · rename_i firstStruct hfs
      split at hv
      · rename_i kt et ht
        simp only [Out.bind_ok, Out.ok.injEq] at hv
        obtain ⟨res, hres, rfl⟩ := hv
        have hp := hord (path ++ [f.name]) (mergeMembers [] l').keys
        obtain ⟨h1, h2⟩ := map2Outer_ok hord hkind.2 _ (hp.nodup_iff.2 hkind.1) hres
        refine ⟨reg, res, hreg, by simpa using hget, ?_, ?_⟩
        · intro key0 key1
          by_cases hkm : ∃ oi, lastOf o key0 = some (.obj oi) ∧ key1 ∈ oi.map Prod.fst
          · have hk0 : key0 ∈ (mergeMembers ([] : GoMap Bytes (GoMap Bytes J)) l').keys := by
              obtain ⟨oi, ho, _⟩ := hkm
              exact (hrk key0).2 (lastOf_isSome.1 (by rw [ho]; rfl))
            obtain ⟨_, v, _, _, hv⟩ := h2 key0 (hp.mem_iff.2 hk0) key1 ((hin key0 key1).2 hkm)
            simp only [hv, Option.isSome_some, true_iff]
            exact hkm
          · rw [h1 (key0, key1) (fun _ hc => hkm ((hin key0 key1).1 hc))]
            simp only [GoMap.get?, Option.isSome_none, Bool.false_eq_true, false_iff]
            exact hkm
        · intro key0 key1 oi j hl0 hl1
          have hk0 : key0 ∈ (mergeMembers ([] : GoMap Bytes (GoMap Bytes J)) l').keys :=
            (hrk key0).2 (lastOf_isSome.1 (by rw [hl0]; rfl))
          have hk1 := (hin key0 key1).2 ⟨oi, hl0, lastOf_isSome.1 (by rw [hl1]; rfl)⟩
          obtain ⟨inst, v, e1, e2, e3⟩ := h2 key0 (hp.mem_iff.2 hk0) key1 hk1
          rw [hraw0, hl0] at e1
          simp only [Option.bind_some, innerMap, Option.getD_some] at e1
          rw [mergeMembers_get, hl1] at e1
          obtain ⟨c, content, fields, g1, g2, rfl⟩ := element_ok e1
          obtain ⟨ha, rfl⟩ := store_ok e2
          refine ⟨_, _, _, classFor_getD hfm key0, ?_, e3, c, content, _, fields, g1, by simpa using g2, rfl⟩
          cases hq : GoMap.get? ((GoMap.get? specs key0).getD firstMap) key1 with
          | some s => left; simp
          | none =>
            right
            refine ⟨GoMap.get?_eq_none.1 hq, ?_⟩
            obtain ⟨k0, hk0m, hk0l⟩ := getFirst_least hfm
            obtain ⟨k1, hk1m, hk1l⟩ := getFirst_least hfs
            exact ⟨k0, firstMap, k1, hk0m, hk0l, by simpa using hk1m, hk1l⟩
      · simp at hv

example : ∃ f o, (loopFields (exEnv.struct exTarget.cls).fields)[3]? = some f ∧
    GoMap.get? exSpec.fields f.name = some (.map2 [(b "q", [(b "x", circle)]), (b "p", [(b "y", square)])]) ∧
    valuesOf exExt (loopFields (exEnv.struct exTarget.cls).fields) 3
      (match exDoc with | .obj m => m | _ => []) = [.obj o] ∧ o.length = 1 :=
  ⟨_, _, rfl, rfl, by rw [valuesOf_eq]; rfl, rfl⟩

end Verif.Det
