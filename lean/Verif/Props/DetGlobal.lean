import Verif.Props.Det
import Verif.Lemmas.DetAgree
set_option linter.unusedSimpArgs false
/-!
# C38 - C43, C46: `JsonUnmarshal` as a whole
-/
namespace Verif.Det

/-! ## C38: classes come from somewhere -/

/-- After success every specified value, at every nesting depth, has a class that comes from
`ref` or is reachable: nothing is guessed. -/
theorem C38_origin {env : Env} {ext : Ext} {fuel ref path tgt spec dat t'}
    (hord : ∀ p ks, (ext.ord p ks).Perm ks) (hn : ref.keys.Nodup)
    (h : decode env ext fuel ref path tgt spec dat = .ret t' false) (n : Nat) :
    DeepOk env (Origin env ref tgt.cls) n spec tgt.cls t'.fields :=
  decode_deep hord n hn h

/-- A class that is in neither place, needed for a field specified by one class. -/
theorem C38_single {env : Env} {ext : Ext} {fuel ref path tgt spec dat} (hn : ref.keys.Nodup)
    {f : Fld} (hf : f ∈ loopFields (env.struct tgt.cls).fields)
    {s : Cls} (hs : GoMap.get? spec.fields f.name = some (.single s))
    (hmiss : ∀ c, ¬ Origin env ref tgt.cls s.name c) (t' : Inst) :
    decode env ext fuel ref path tgt spec dat ≠ .ret t' false := by
  intro h
  obtain ⟨i, hi⟩ := List.mem_iff_getElem?.1 hf
  obtain ⟨reg, _, _, c, content, _, _, _, hreg, _, _, hg, _⟩ := C37_single h hi hs
  exact hmiss c (origin_of_reg hn hreg hg)

/-- ... for an element of a list. -/
theorem C38_list {env : Env} {ext : Ext} {fuel ref path tgt spec m} (hn : ref.keys.Nodup)
    {i : Nat} {f : Fld} (hf : (loopFields (env.struct tgt.cls).fields)[i]? = some f)
    {specs : List Cls} (hs : GoMap.get? spec.fields f.name = some (.list specs))
    {et : Ty} (ht : env.resolve f.ty = .slice et) {js : List J}
    (hj : (valuesOf ext (loopFields (env.struct tgt.cls).fields) i m).getLast? = some (.arr js))
    {k : Nat} (hk : k < js.length)
    (hmiss : ∀ s c, (specs[k]? = some s ∨ specs.length ≤ k ∧ specs[0]? = some s) →
      ¬ Origin env ref tgt.cls s.name c) (t' : Inst) :
    decode env ext fuel ref path tgt spec (some (.obj m)) ≠ .ret t' false := by
  intro h
  obtain ⟨reg, vs, hreg, _, _, hall⟩ := C34_list h hf hs ht rfl hj
  obtain ⟨s, v, _, ⟨c, content, _, _, hg, _⟩, hsp⟩ := hall k _ (List.getElem?_eq_getElem hk)
  exact hmiss s c hsp (origin_of_reg hn hreg hg)

/-- ... for a key of a map. -/
theorem C38_map {env : Env} {ext : Ext} {fuel ref path tgt spec m}
    (hord : ∀ p ks, (ext.ord p ks).Perm ks) (hn : ref.keys.Nodup)
    {i : Nat} {f : Fld} (hf : (loopFields (env.struct tgt.cls).fields)[i]? = some f)
    {specs : List (Bytes × Cls)} (hs : GoMap.get? spec.fields f.name = some (.map specs))
    {o} (ho : valuesOf ext (loopFields (env.struct tgt.cls).fields) i m = [.obj o])
    {key : Bytes} (hk : key ∈ o.map Prod.fst)
    (hmiss : ∀ s c, ClassFor specs key s → ¬ Origin env ref tgt.cls s.name c) (t' : Inst) :
    decode env ext fuel ref path tgt spec (some (.obj m)) ≠ .ret t' false := by
  intro h
  obtain ⟨reg, res, hreg, _, _, hall⟩ := C35_map hord h hf hs ho
  obtain ⟨j, hj⟩ := Option.isSome_iff_exists.1 (lastOf_isSome.2 hk)
  obtain ⟨s, v, hc, _, c, content, _, _, hg, _⟩ := hall key j hj
  exact hmiss s c hc (origin_of_reg hn hreg hg)

/-- ... for a pair of keys of a two-label map. -/
theorem C38_map2 {env : Env} {ext : Ext} {fuel ref path tgt spec m}
    (hord : ∀ p ks, (ext.ord p ks).Perm ks) (hn : ref.keys.Nodup)
    {i : Nat} {f : Fld} (hf : (loopFields (env.struct tgt.cls).fields)[i]? = some f)
    {specs : List (Bytes × List (Bytes × Cls))} (hs : GoMap.get? spec.fields f.name = some (.map2 specs))
    {o} (ho : valuesOf ext (loopFields (env.struct tgt.cls).fields) i m = [.obj o])
    {key0 key1 : Bytes} {oi} (hk0 : lastOf o key0 = some (.obj oi)) (hk1 : key1 ∈ oi.map Prod.fst)
    (hmiss : ∀ s c, Class2For specs key0 key1 s → ¬ Origin env ref tgt.cls s.name c) (t' : Inst) :
    decode env ext fuel ref path tgt spec (some (.obj m)) ≠ .ret t' false := by
  intro h
  obtain ⟨reg, res, hreg, _, _, hall⟩ := C36_map2 hord h hf hs ho
  obtain ⟨j, hj⟩ := Option.isSome_iff_exists.1 (lastOf_isSome.2 hk1)
  obtain ⟨inner, s, v, hc, hc2, _, c, content, _, _, hg, _⟩ := hall key0 key1 oi j hk0 hj
  exact hmiss s c ⟨inner, hc, hc2⟩ (origin_of_reg hn hreg hg)

/-! An example with a class nobody knows. -/

def ghost : Cls := .mk (b "Ghost") []

theorem exReach {impls : GoMap Bytes (List (Option Ty))} {r : Nat} (hr : r ≤ 2)
    (himpls : ∀ n l, GoMap.get? impls n = some l → ∀ u, some u ∈ l → u = .ptr (.struct 0) ∨ u = .ptr (.struct 1))
    {u : Ty} (h : Reach exEnv impls (.ptr (.struct r)) u) :
    (∃ c ≤ 2, u = .ptr (.struct c) ∨ u = .struct c) ∨ u = .leaf 0 ∨ u = .iface 0 ∨
      u = .slice (.iface 0) ∨ u = .map .str (.iface 0) ∨ u = .map .str2 (.iface 0) := by
  induction h with
  | refl => exact Or.inl ⟨r, hr, Or.inl rfl⟩
  | step _ hs ih =>
    rcases ih with ⟨c, hc, rfl | rfl⟩ | rfl | rfl | rfl | rfl | rfl <;> cases hs with
    | ptr h => first | (cases h; exact Or.inl ⟨_, hc, Or.inr rfl⟩) | cases h
    | slice h => first | (cases h; simp) | cases h
    | map h => first | (cases h; simp) | cases h
    | field h hf =>
      first
      | (cases h
         have : c = 0 ∨ c = 1 ∨ c = 2 := by omega
         rcases this with rfl | rfl | rfl <;> simp [exEnv] at hf
         · subst hf; simp [Fld.ty]
         · subst hf; simp [Fld.ty]
         · rcases hf with rfl | rfl | rfl | rfl | rfl <;> simp [Fld.ty])
      | cases h
    | impl h hl hm =>
      first
      | (cases h
         rcases himpls _ _ hl _ hm with rfl | rfl
         · exact Or.inl ⟨0, by omega, Or.inl rfl⟩
         · exact Or.inl ⟨1, by omega, Or.inl rfl⟩)
      | cases h

theorem exImpls : ∀ n l, GoMap.get? (implementations exRef) n = some l →
    ∀ u, some u ∈ l → u = .ptr (.struct 0) ∨ u = .ptr (.struct 1) := by
  intro n l h u hu
  have he : implementations exRef = [(b "Shape", [some (.ptr (.struct 0)), some (.ptr (.struct 1))])] := rfl
  rw [he] at h
  have := GoMap.get?_mem h
  simp only [List.mem_cons, Prod.mk.injEq, List.not_mem_nil, or_false] at this
  rw [this.2] at hu
  simpa using hu

/-- The classes of the example: only the three structs, by their names. -/
theorem exOrigin {name : Bytes} {c : Nat} (h : Origin exEnv exRef 2 name c) : c ≤ 2 ∧ IsNameOf exEnv name c := by
  have hnot : ∀ k t, GoMap.get? exRef k ≠ some (.tmpl t) := by
    intro k t hc
    have := GoMap.get?_mem hc
    simp [exRef] at this
  rcases h with ⟨content, h1⟩ | ⟨_, h2, r, u, h3, h4, h5⟩
  · exact absurd h1 (hnot _ _)
  · rcases h3 with rfl | ⟨k, content, h3⟩
    · refine ⟨?_, h2⟩
      rcases exReach (Nat.le_refl 2) exImpls h4 with ⟨c', hc', rfl | rfl⟩ | rfl | rfl | rfl | rfl | rfl <;> cases h5
      exact hc'
    · exact absurd h3 (hnot _ _)

theorem exName {name : Bytes} {c : Nat} (h : IsNameOf exEnv name c) :
    (c = 0 → name = b "Circle" ∨ name = b "geo.Circle") ∧ (c = 1 → name = b "Square" ∨ name = b "geo.Square") ∧
    (c = 2 → name = b "Picture" ∨ name = b "geo.Picture") := by
  obtain ⟨_, h⟩ := h
  refine ⟨?_, ?_, ?_⟩ <;> rintro rfl <;> rcases h with rfl | ⟨_, rfl⟩ <;> simp [exEnv] <;> decide

theorem ghostMissing (c : Nat) : ¬ Origin exEnv exRef 2 (b "Ghost") c := by
  intro h
  obtain ⟨h1, h2⟩ := exOrigin h
  have h3 := exName h2
  have : c = 0 ∨ c = 1 ∨ c = 2 := by omega
  rcases this with rfl | rfl | rfl
  · rcases h3.1 rfl with h | h <;> exact absurd h (by decide)
  · rcases h3.2.1 rfl with h | h <;> exact absurd h (by decide)
  · rcases h3.2.2 rfl with h | h <;> exact absurd h (by decide)

/-- The missing class is an error; and the hypotheses of the theorems above hold. -/
example : decode exEnv exExt 9 exRef [] exTarget (.mk (b "Picture") [(b "Main", .single ghost)])
    (some (.obj [(b "main", .null)])) = .ret ⟨2, GoMap.set exTarget.fields (b "Name") (.leaf 0)⟩ true := by
  rw [decode_eqN 3 (by simp [Cls.depth, CVal.depth, depthF, ghost])]
  rfl

example (t' : Inst) (dat : Doc) :
    decode exEnv exExt 9 exRef [] exTarget (.mk (b "Picture") [(b "Main", .single ghost)]) dat ≠ .ret t' false :=
  C38_single (f := .mk (b "Main") true (b "main") (.iface 0) none) (by decide)
    (List.mem_of_getElem? (i := 4) rfl) rfl ghostMissing t'

/-! ## C46: explicit entries win at every depth -/

/-- If `ref` gives a template for a class name, then every value of that class name, at every
nesting depth, has the type of that template. -/
theorem C46_explicit {env : Env} {ext : Ext} {fuel ref path tgt spec dat t'}
    (hord : ∀ p ks, (ext.ord p ks).Perm ks) (hn : ref.keys.Nodup)
    (h : decode env ext fuel ref path tgt spec dat = .ret t' false) (n : Nat) :
    DeepOk env (fun name c => ∀ t, GoMap.get? ref name = some (.tmpl t) → ∃ content, t = .ptr c content)
      n spec tgt.cls t'.fields := by
  refine (decode_deep hord n hn h).mono ?_
  intro name c ho t ht
  rcases ho with ⟨content, h1⟩ | ⟨h1, _⟩
  · rw [ht] at h1; simp at h1; exact ⟨content, h1⟩
  · exact absurd ht (h1 t)

/-- Here `Circle` is redirected to the struct `Square`. -/
example : decode exEnv exExt 9 ((b "Circle", .tmpl (.ptr 1 [(b "Side", .leaf 7)])) :: exRef) [] exTarget exSpec
    (some (.obj [(b "shapes", .arr [.obj [(b "side", .atom (b "4444"))]]), (b "main", .null)]))
    = .ret ⟨2, [(b "Name", .leaf 0), (b "Shapes", .slice [.ref 1 [(b "Side", .leaf 4)]]), (b "ByName", .map []),
        (b "ByPair", .map2 []), (b "Main", .ref 1 [(b "Side", .leaf 0)])]⟩ false := by
  rw [decode_eqN 2 (by simp [Cls.depth, CVal.depth, depthF, depthL, depthM, depthM2, exSpec, circle, square])]
  rfl

/-! ## C42: no panic, and well-typed values -/

/-- After success the specified values are of the declared types: elements assignable to the
element type of a slice or map with string keys (pairs for two labels), pointers assignable to
the field or a struct of the field's own type. (`C38_origin` says the same together with the
origin of the classes.) -/
theorem C42_typed {env : Env} {ext : Ext} {fuel ref path tgt spec dat t'}
    (hord : ∀ p ks, (ext.ord p ks).Perm ks) (hn : ref.keys.Nodup)
    (h : decode env ext fuel ref path tgt spec dat = .ret t' false) (n : Nat) :
    DeepOk env (fun _ _ => True) n spec tgt.cls t'.fields :=
  (decode_deep hord n hn h).mono fun _ _ _ => trivial

/-- `JsonUnmarshal` does not panic, on any document, when the specification fits the types at
every depth (pointers or interfaces as element types, distinct promoted names) and every template
is nil or a pointer to a struct. -/
theorem C42_no_panic_partial {env : Env} {ext : Ext} {fuel ref path tgt spec dat} (hn : ref.keys.Nodup)
    (hbad : ∀ k, GoMap.get? ref k ≠ some (.tmpl .bad))
    (hfit : ∀ n, FitsN env ext (Origin env ref tgt.cls) n spec tgt.cls) :
    decode env ext fuel ref path tgt spec dat ≠ .panic :=
  decode_np spec.depth (Nat.le_refl _) hn hbad (hfit _)

theorem exFits (n : Nat) : FitsN exEnv exExt (Origin exEnv exRef 2) n exSpec 2 := by
  cases n with
  | zero => trivial
  | succ n =>
    have hleaf : ∀ nm m c, FitsN exEnv exExt (Origin exEnv exRef 2) m (.mk nm []) c := by
      intro nm m c; cases m with
      | zero => trivial
      | succ m => exact Or.inl rfl
    have has : ∀ c', (Origin exEnv exRef 2 (b "Circle") c' ∨ Origin exEnv exRef 2 (b "Square") c') →
        Holds exEnv (.iface 0) c' := by
      intro c' h
      refine .iface (i := 0) rfl ?_
      have h1 : c' ≤ 2 ∧ (IsNameOf exEnv (b "Circle") c' ∨ IsNameOf exEnv (b "Square") c') := by
        rcases h with h | h
        · exact ⟨(exOrigin h).1, Or.inl (exOrigin h).2⟩
        · exact ⟨(exOrigin h).1, Or.inr (exOrigin h).2⟩
      have : c' = 0 ∨ c' = 1 ∨ c' = 2 := by omega
      rcases this with rfl | rfl | rfl
      · rfl
      · rfl
      · rcases h1.2 with h | h
        · rcases (exName h).2.2 rfl with h | h <;> exact absurd h (by decide)
        · rcases (exName h).2.2 rfl with h | h <;> exact absurd h (by decide)
    have hfs : loopFields (exEnv.struct 2).fields = (exEnv.struct 2).fields := rfl
    refine Or.inr ⟨by decide, rfl, ?_⟩
    rw [hfs]
    intro f hf sv hsv
    simp only [exEnv, List.mem_cons, List.not_mem_nil, or_false] at hf
    rcases hf with rfl | rfl | rfl | rfl | rfl
    · simp [Cls.fields, exSpec, Fld.name, GoMap.get?] at hsv
      simp +decide at hsv
    · have : GoMap.get? exSpec.fields (b "Shapes") = some (.list [circle, square]) := rfl
      simp only [Fld.name] at hsv; rw [this] at hsv; cases hsv
      refine ⟨.iface 0, Or.inl rfl, ?_⟩
      intro s' hs' c' hc'
      simp only [List.mem_cons, List.not_mem_nil, or_false] at hs'
      rcases hs' with rfl | rfl
      · exact ⟨has _ (Or.inl hc'), hleaf _ _ _⟩
      · exact ⟨has _ (Or.inr hc'), hleaf _ _ _⟩
    · have : GoMap.get? exSpec.fields (b "ByName") = some (.map [(b "b", circle), (b "a", square)]) := rfl
      simp only [Fld.name] at hsv; rw [this] at hsv; cases hsv
      refine ⟨.iface 0, rfl, ?_⟩
      intro s' hs' c' hc'
      simp only [List.map_cons, List.map_nil, List.mem_cons, List.not_mem_nil, or_false] at hs'
      rcases hs' with rfl | rfl
      · exact ⟨has _ (Or.inl hc'), hleaf _ _ _⟩
      · exact ⟨has _ (Or.inr hc'), hleaf _ _ _⟩
    · have : GoMap.get? exSpec.fields (b "ByPair")
          = some (.map2 [(b "q", [(b "x", circle)]), (b "p", [(b "y", square)])]) := rfl
      simp only [Fld.name] at hsv; rw [this] at hsv; cases hsv
      refine ⟨.iface 0, rfl, ?_⟩
      intro s' hs' c' hc'
      simp only [List.flatMap_cons, List.flatMap_nil, List.map_cons, List.map_nil, List.append_nil,
        List.cons_append, List.nil_append, List.mem_cons, List.not_mem_nil, or_false] at hs'
      rcases hs' with rfl | rfl
      · exact ⟨has _ (Or.inl hc'), hleaf _ _ _⟩
      · exact ⟨has _ (Or.inr hc'), hleaf _ _ _⟩
    · have : GoMap.get? exSpec.fields (b "Main") = some (.single square) := rfl
      simp only [Fld.name] at hsv; rw [this] at hsv; cases hsv
      intro c' hc'
      exact ⟨Or.inl (has _ (Or.inr hc')), hleaf _ _ _⟩

/-- The hypotheses hold for the example, so no document makes it panic. -/
example (dat : Doc) : decode exEnv exExt 9 exRef [] exTarget exSpec dat ≠ .panic :=
  C42_no_panic_partial (by decide) (by
    intro k h
    have := GoMap.get?_mem h
    simp [exRef] at this) exFits

/-- `Tree` (0) has `Kids []Leaf` (struct values), `Leaf` (1); `Twin` (2) embeds two structs that both have a
field `ID`. -/
def valEnv : Env where
  struct
    | 0 => ⟨b "Tree", b "t", [.mk (b "Kids") true (b "kids") (.slice (.struct 1)) none]⟩
    | 1 => ⟨b "Leaf", b "t", [.mk (b "ID") true (b "id") (.leaf 0) none]⟩
    | 2 => ⟨b "Twin", b "t", [.mk (b "A") true [] (.struct 1) (some [.mk (b "ID") true (b "id") (.leaf 0) none]),
        .mk (b "B") true [] (.struct 1) (some [.mk (b "ID") true (b "id2") (.leaf 0) none]),
        .mk (b "Main") true (b "main") (.ptr (.struct 1)) none]⟩
    | _ => ⟨[], [], []⟩
  iface _ := ⟨[], fun _ => false⟩
  under _ := .leaf 0

def leafSpec : Cls := .mk (b "Leaf") []

/-- C42 does not hold in general (1): a slice of structs, specified by its own element type,
panics on the first element. -/
theorem C42_value_slice_violated :
    decode valEnv exExt 9 [] [] ⟨0, fresh valEnv exExt 0⟩ (.mk (b "Tree") [(b "Kids", .list [leafSpec])])
      (some (.obj [(b "kids", .arr [.obj []])])) = .panic := by
  rw [decode_eqN 3 (by simp [Cls.depth, CVal.depth, depthF, depthL, leafSpec])]
  rfl

/-- C42 does not hold in general (2): two embedded structs with a field of the same name panic, on
every document. -/
theorem C42_promoted_violated (dat : Doc) :
    decode valEnv exExt 9 [] [] ⟨2, fresh valEnv exExt 2⟩ (.mk (b "Twin") [(b "Main", .single leafSpec)]) dat = .panic := by
  rw [decode_eqN 3 (by simp [Cls.depth, CVal.depth, depthF, depthL, leafSpec])]
  rfl

/-! ## C41: determinism -/

/-- Whatever orders two calls iterate maps in: they succeed together and with the same result, and
if both return an error the target is in the same state (provided that no map field is specified by
a list of classes). -/
theorem C41_deterministic_partial {env : Env} {ext : Ext} {fuel ref path path' tgt spec dat}
    {ord' : List Bytes → List Bytes → List Bytes}
    (hord : ∀ p ks, (ext.ord p ks).Perm ks) (hord' : ∀ p ks, (ord' p ks).Perm ks) (hn : ref.keys.Nodup)
    (hno : ∀ n, NoListOnMap env (Origin env ref tgt.cls) n spec tgt.cls) :
    (∀ t, decode env ext fuel ref path tgt spec dat = .ret t false ↔
      decode env { ext with ord := ord' } fuel ref path' tgt spec dat = .ret t false) ∧
    ∀ t t', decode env ext fuel ref path tgt spec dat = .ret t true →
      decode env { ext with ord := ord' } fuel ref path' tgt spec dat = .ret t' true → t = t' :=
  decode_agree hord hord' spec.depth (Nat.le_refl _) hn (hno _)

/-- So when the specification also fits the types and discovery ends, the two calls are the same. -/
theorem C41_equal_partial {env : Env} {ext : Ext} {fuel ref path path' tgt spec dat}
    {ord' : List Bytes → List Bytes → List Bytes}
    (hord : ∀ p ks, (ext.ord p ks).Perm ks) (hord' : ∀ p ks, (ord' p ks).Perm ks) (hn : ref.keys.Nodup)
    (hno : ∀ n, NoListOnMap env (Origin env ref tgt.cls) n spec tgt.cls)
    (hbad : ∀ k, GoMap.get? ref k ≠ some (.tmpl .bad))
    (hfit : ∀ n, FitsN env ext (Origin env ref tgt.cls) n spec tgt.cls)
    (hh : decode env ext fuel ref path tgt spec dat ≠ .hang)
    (hh' : decode env { ext with ord := ord' } fuel ref path' tgt spec dat ≠ .hang) :
    decode env ext fuel ref path tgt spec dat = decode env { ext with ord := ord' } fuel ref path' tgt spec dat := by
  obtain ⟨h1, h2⟩ := C41_deterministic_partial (fuel := fuel) (path := path) (path' := path') (dat := dat) hord hord' hn hno
  have p1 := C42_no_panic_partial (fuel := fuel) (path := path) (dat := dat) hn hbad hfit
  have hfit' : ∀ n s c, FitsN env ext (Origin env ref tgt.cls) n s c →
      FitsN env { ext with ord := ord' } (Origin env ref tgt.cls) n s c := by
    intro n
    induction n with
    | zero => intros; trivial
    | succ n ih =>
      intro s c h
      rcases h with h | ⟨a1, a2, a3⟩
      · exact Or.inl h
      · refine Or.inr ⟨a1, a2, fun f hf sv hsv => ?_⟩
        have h := a3 f hf sv hsv
        cases sv with
        | none => trivial
        | single s' => exact fun c' hc' => ⟨(h c' hc').1, ih _ _ (h c' hc').2⟩
        | list l =>
          obtain ⟨et, ht, h⟩ := h
          exact ⟨et, ht, fun s' hs' c' hc' => ⟨(h s' hs' c' hc').1, ih _ _ (h s' hs' c' hc').2⟩⟩
        | map l =>
          obtain ⟨et, ht, h⟩ := h
          exact ⟨et, ht, fun s' hs' c' hc' => ⟨(h s' hs' c' hc').1, ih _ _ (h s' hs' c' hc').2⟩⟩
        | map2 l =>
          obtain ⟨et, ht, h⟩ := h
          exact ⟨et, ht, fun s' hs' c' hc' => ⟨(h s' hs' c' hc').1, ih _ _ (h s' hs' c' hc').2⟩⟩
  have p2 := C42_no_panic_partial (ext := { ext with ord := ord' }) (fuel := fuel) (path := path') (dat := dat) hn hbad
    (fun n => hfit' n _ _ (hfit n))
  cases hr : decode env ext fuel ref path tgt spec dat with
  | panic => exact absurd hr p1
  | hang => exact absurd hr hh
  | ret t e =>
    cases e with
    | false => exact ((h1 t).1 hr).symm
    | true =>
      cases hr' : decode env { ext with ord := ord' } fuel ref path' tgt spec dat with
      | panic => exact absurd hr' p2
      | hang => exact absurd hr' hh'
      | ret t' e' =>
        cases e' with
        | false => have := (h1 t').2 hr'; rw [hr] at this; cases this
        | true => rw [h2 t t' hr hr']

/-- The hypotheses hold for the example and an order that differs from the first. -/
example : (∀ n, NoListOnMap exEnv (Origin exEnv exRef 2) n exSpec 2) ∧
    (∀ (p : List Bytes) ks, ((fun _ ks => ks.reverse : List Bytes → List Bytes → List Bytes) p ks).Perm ks) := by
  refine ⟨fun n => ?_, fun _ ks => ks.reverse_perm⟩
  have hleaf : ∀ nm m c, NoListOnMap exEnv (Origin exEnv exRef 2) m (.mk nm []) c := by
    intro nm m c; cases m with
    | zero => trivial
    | succ m => intro f _ sv hsv; simp [Cls.fields, GoMap.get?] at hsv
  cases n with
  | zero => trivial
  | succ n =>
    intro f hf sv hsv
    have hsub : ∀ s' ∈ sv.subs, s'.fields = [] := by
      intro s' hs'
      have : s' ∈ exSpec.subs := List.mem_flatMap.2 ⟨_, GoMap.get?_mem hsv, hs'⟩
      have he : exSpec.subs = [circle, square, circle, square, circle, square, square] := rfl
      rw [he] at this
      simp only [List.mem_cons, List.not_mem_nil, or_false] at this
      rcases this with rfl | rfl | rfl | rfl | rfl | rfl | rfl <;> rfl
    refine ⟨?_, fun s' hs' c' _ => ?_⟩
    · intro l kt et hl ht
      have hfs : loopFields (exEnv.struct 2).fields = (exEnv.struct 2).fields := rfl
      rw [hfs] at hf
      simp only [exEnv, List.mem_cons, List.not_mem_nil, or_false] at hf
      subst hl
      have h1 := GoMap.get?_mem hsv
      simp only [exSpec, Cls.fields, List.mem_cons, Prod.mk.injEq, reduceCtorEq, and_false, List.not_mem_nil,
        or_false] at h1
      rcases hf with rfl | rfl | rfl | rfl | rfl
      · cases ht
      · cases ht
      · exact absurd h1.1 (by decide)
      · exact absurd h1.1 (by decide)
      · cases ht
    · obtain ⟨nm, fl⟩ := s'
      have := hsub _ hs'
      simp only [Cls.fields] at this
      subst this
      exact hleaf _ _ _

/-- The result when keys `p`, `q` get these classes. -/
def pq (c c' : Nat) : Inst := ⟨2, [(b "Name", .leaf 0), (b "Shapes", .leaf 0),
  (b "ByName", .map [(b "p", .ref c (fresh exEnv exExt c)), (b "q", .ref c' (fresh exEnv exExt c'))]),
  (b "ByPair", .leaf 0), (b "Main", .leaf 0)]⟩

/-- C41 does not hold in general: a map field specified by a list of two classes; which key gets
which class depends on the iteration order of the document's object. -/
theorem C41_list_on_map_violated :
    pq 0 1 ≠ pq 1 0 ∧
    decode exEnv exExt 9 exRef [] exTarget (.mk (b "Picture") [(b "ByName", .list [circle, square])])
      (some (.obj [(b "by_name", .obj [(b "p", .null), (b "q", .null)])])) = .ret (pq 0 1) false ∧
    decode exEnv { exExt with ord := fun _ ks => ks.reverse } 9 exRef [] exTarget
      (.mk (b "Picture") [(b "ByName", .list [circle, square])])
      (some (.obj [(b "by_name", .obj [(b "p", .null), (b "q", .null)])])) = .ret (pq 1 0) false := by
  refine ⟨?_, ?_, ?_⟩
  · intro h; simp [pq] at h
  · rw [decode_eqN 3 (by simp [Cls.depth, CVal.depth, depthF, depthL, circle, square])]
    rfl
  · rw [decode_eqN 3 (by simp [Cls.depth, CVal.depth, depthF, depthL, circle, square])]
    rfl

/-! ## C43: templates are prototypes -/

/-- The result depends on `ref` only through its interface implementations and the types of the
templates: neither on the content of the templates nor on the order of the entries. -/
theorem C43_prototypes_partial {env : Env} {ext : Ext} {fuel : Nat} {ref ref' : Ref} {path tgt spec dat}
    (hn : ref.keys.Nodup) (hn' : ref'.keys.Nodup) (h : SameTypes ref ref') :
    decode env ext fuel ref path tgt spec dat = decode env ext fuel ref' path tgt spec dat :=
  decode_same spec.depth (Nat.le_refl _) hn hn' h

example : SameTypes
    [(b "X", .tmpl (.ptr 0 [(b "Radius", .leaf 5)])), (b "S", .impls [none]), (b "Y", .tmpl .nil)]
    [(b "Y", .tmpl .nil), (b "S", .impls [none]), (b "X", .tmpl (.ptr 0 []))] := by
  intro k
  by_cases h1 : b "X" = k
  · subst h1; rfl
  · by_cases h2 : b "S" = k
    · subst h2; rfl
    · by_cases h3 : b "Y" = k
      · subst h3; trivial
      · simp [GoMap.get?, h1, h2, h3]

/-- The instance a value is decoded into is zero in every field (given distinct promoted names). -/
theorem C43_fresh (env : Env) (ext : Ext) (c : Nat) (hn : ((flatFields (env.struct c).fields).map Prod.fst).Nodup)
    {f : Fld} (hf : Exported (env.struct c).fields f) :
    GoMap.get? (fresh env ext c) f.name = some (ext.zero f.ty) := by
  refine GoMap.mem_get? ?_ ?_
  · simp only [fresh, GoMap.keys, List.map_map, Function.comp_def]
    exact hn
  · exact List.mem_map.2 ⟨_, flatFields_exported hf, rfl⟩

example : ((flatFields (exEnv.struct 2).fields).map Prod.fst).Nodup := by decide

/-! ## C39: fields without a specification -/

/-- A field without a specification ends up as its values in the document, decoded one after the
other by `encoding/json` starting from the zero value. -/
theorem C39_unspecified {env : Env} {ext : Ext} {fuel ref path tgt spec m t'} (hne : spec.fields ≠ [])
    (h : decode env ext fuel ref path tgt spec (some (.obj m)) = .ret t' false)
    {i : Nat} {f : Fld} (hf : (loopFields (env.struct tgt.cls).fields)[i]? = some f)
    (hs : GoMap.get? spec.fields f.name = none) :
    ∃ v, GoMap.get? t'.fields f.name = some v ∧
      (valuesOf ext (loopFields (env.struct tgt.cls).fields) i m).foldlM (ext.leaf f) (ext.zero f.ty) = some v := by
  obtain ⟨reg, m', hreg, hm, _, _, hfld⟩ := decode_ok hne h
  obtain ⟨raw, o, hraw, hv, hget⟩ := hfld i f hf
  simp only [membersOf, Option.some.injEq] at hm
  subst hm
  have hk : rawKind env spec.fields f = .val := by simp [rawKind, hs]
  rw [hk] at hraw
  obtain ⟨w, rfl, hw⟩ := rawFold_val _ hraw
  simp only [fieldValue, hs, Out.ok.injEq] at hv
  subst hv
  exact ⟨w, by simpa using hget, hw⟩

/-- The fields taking part are exactly the exported ones that are not excluded by their tag, with
embedded structs replaced by their fields. -/
theorem C39_fields (fs : List Fld) (f : Fld) : f ∈ loopFields fs ↔ Exported fs f :=
  ⟨loopFields_sound fs f, loopFields_complete⟩

example : Exported [.mk (b "A") true [] (.struct 1) (some [.mk (b "ID") true (b "id") (.leaf 0) none,
    .mk (b "x") false (b "x") (.leaf 0) none])] (.mk (b "ID") true (b "id") (.leaf 0) none) :=
  .embedded (List.mem_singleton.2 rfl) (.own (by simp) (by decide) (by decide) (Or.inl (by decide)))

/-- A field that does not take part (not exported, or with the tag `-`) keeps its value. -/
theorem C39_skipped {env : Env} {ext : Ext} {fuel ref path tgt spec dat t'} (hne : spec.fields ≠ [])
    (h : decode env ext fuel ref path tgt spec dat = .ret t' false) {n : Bytes}
    (hn : ∀ f, Exported (env.struct tgt.cls).fields f → f.name ≠ n) :
    GoMap.get? t'.fields n = GoMap.get? tgt.fields n := by
  obtain ⟨reg, m', hreg, hm, _, h2, _⟩ := decode_ok hne h
  refine h2 n fun hc => ?_
  obtain ⟨f, hf, e⟩ := List.mem_map.1 hc
  exact hn f (loopFields_sound _ f hf) e

/-- `Hidden` (0): `A` has the tag `-`, `b` is not exported, `C` is a pointer to `Leaf` (1). -/
def hideEnv : Env where
  struct
    | 0 => ⟨b "Hidden", b "t", [.mk (b "A") true (b "-") (.leaf 0) none, .mk (b "b") false (b "b") (.leaf 0) none,
        .mk (b "C") true (b "c") (.ptr (.struct 1)) none]⟩
    | _ => ⟨b "Leaf", b "t", []⟩
  iface _ := ⟨[], fun _ => false⟩
  under _ := .leaf 0

example : (∀ f, Exported (hideEnv.struct 0).fields f → f.name ≠ b "A") ∧
    decode hideEnv exExt 9 [] [] ⟨0, [(b "A", .leaf 5), (b "b", .leaf 6), (b "C", .leaf 0)]⟩
      (.mk (b "Hidden") [(b "C", .single (.mk (b "Leaf") []))])
      (some (.obj [(b "-", .atom (b "x")), (b "A", .atom (b "x")), (b "b", .atom (b "x")), (b "c", .null)]))
      = .ret ⟨0, [(b "A", .leaf 5), (b "b", .leaf 6), (b "C", .ref 1 [])]⟩ false := by
  constructor
  · intro f hf
    have := (C39_fields _ f).2 hf
    have he : loopFields (hideEnv.struct 0).fields = [.mk (b "C") true (b "c") (.ptr (.struct 1)) none] := rfl
    rw [he] at this
    simp at this; subst this; decide
  · rw [decode_eqN 3 (by simp [Cls.depth, CVal.depth, depthF])]
    rfl

/-- What `json.Unmarshal` does to the fields of a struct (external): every field is decoded from
its values in the document one after the other, starting from the value it has. -/
def PlainLike (env : Env) (ext : Ext) : Prop :=
  ∀ (tgt : Inst) (m : List (Bytes × J)) (fields : List (Bytes × Val)), ext.plain tgt (.obj m) = (fields, false) →
    ∀ (i : Nat) (f : Fld), (loopFields (env.struct tgt.cls).fields)[i]? = some f →
    ∀ old, GoMap.get? tgt.fields f.name = some old →
      GoMap.get? fields f.name
        = (valuesOf ext (loopFields (env.struct tgt.cls).fields) i m).foldlM (ext.leaf f) old

/-- A field without a specification is as `json.Unmarshal` leaves it, if it was zero before, or if
its decoding from the document does not depend on the value it had. -/
theorem C39_as_json_partial {env : Env} {ext : Ext} {fuel ref path tgt spec m t'} (hp : PlainLike env ext)
    (hne : spec.fields ≠ [])
    (h : decode env ext fuel ref path tgt spec (some (.obj m)) = .ret t' false)
    {p : Inst} (hplain : jsonUnmarshal env ext fuel ref tgt none (some (.obj m)) = .ret p false)
    {i : Nat} {f : Fld} (hf : (loopFields (env.struct tgt.cls).fields)[i]? = some f)
    (hs : GoMap.get? spec.fields f.name = none) {old : Val} (hold : GoMap.get? tgt.fields f.name = some old)
    (hz : old = ext.zero f.ty ∨ ∃ j js, valuesOf ext (loopFields (env.struct tgt.cls).fields) i m = j :: js ∧
      ext.leaf f old j = ext.leaf f (ext.zero f.ty) j) :
    GoMap.get? t'.fields f.name = GoMap.get? p.fields f.name := by
  obtain ⟨v, h1, h2⟩ := C39_unspecified hne h hf hs
  simp only [jsonUnmarshal, plainUnmarshal, Res.ret.injEq] at hplain
  obtain ⟨rfl, he⟩ := hplain
  rw [h1, hp tgt m (ext.plain tgt (.obj m)).1 (Prod.ext rfl he) i f hf old hold, ← h2]
  rcases hz with rfl | ⟨j, js, hj, hl⟩
  · rfl
  · rw [hj]; simp only [List.foldlM_cons, hl]

/-- `json.Unmarshal` for the struct `Leaf` and `Pair` (no field, or fields `A` and `B`). -/
def pairEnv : Env where
  struct
    | 0 => ⟨b "Pair", b "t", [.mk (b "A") true (b "a") (.leaf 0) none, .mk (b "B") true (b "b") (.ptr (.struct 1)) none]⟩
    | 1 => ⟨b "Leaf", b "t", []⟩
    | _ => ⟨[], [], []⟩
  iface _ := ⟨[], fun _ => false⟩
  under _ := .leaf 0

def pairLeaf (v : Val) (j : J) : Option Val :=
  match j with | .null => some v | .atom t => some (.leaf t.length) | _ => some (.ref 1 [])

def pairExt : Ext where
  zero _ := .leaf 0
  leaf _ := pairLeaf
  plain t d := match d with
    | .obj m => (t.fields.map fun e => (e.1,
        ((m.filter fun x => (x.1 = b "a" ∧ e.1 = b "A") ∨ (x.1 = b "b" ∧ e.1 = b "B")).map Prod.snd).foldl
          (fun v j => (pairLeaf v j).getD v) e.2), false)
    | .null => (t.fields, false)
    | _ => (t.fields, true)
  fold k := k
  structOf _ := true
  ord _ ks := ks

theorem pairFold (vs : List J) (v : Val) :
    vs.foldlM pairLeaf v = some (vs.foldl (fun v j => (pairLeaf v j).getD v) v) := by
  induction vs generalizing v with
  | nil => rfl
  | cons j vs ih =>
    have : ∃ w, pairLeaf v j = some w := by
      cases j <;> exact ⟨_, rfl⟩
    obtain ⟨w, hw⟩ := this
    simp [List.foldlM_cons, hw, ih]

theorem pairPlain : PlainLike pairEnv pairExt := by
  intro tgt m fields hpl i f hf old hold
  have hfields : fields = tgt.fields.map fun e => (e.1,
        ((m.filter fun x => (x.1 = b "a" ∧ e.1 = b "A") ∨ (x.1 = b "b" ∧ e.1 = b "B")).map Prod.snd).foldl
          (fun v j => (pairLeaf v j).getD v) e.2) := by
    have := congrArg Prod.fst hpl
    exact this.symm
  have hc : tgt.cls = 0 := by
    by_cases h0 : tgt.cls = 0
    · exact h0
    · exfalso
      have : (loopFields (pairEnv.struct tgt.cls).fields) = [] := by
        cases hq : tgt.cls with
        | zero => exact absurd hq h0
        | succ n => cases n <;> rfl
      rw [this] at hf
      simp at hf
  rw [hc] at hf ⊢
  have hfs : loopFields (pairEnv.struct 0).fields
      = [.mk (b "A") true (b "a") (.leaf 0) none, .mk (b "B") true (b "b") (.ptr (.struct 1)) none] := rfl
  rw [hfs] at hf ⊢
  -- lookups in the mapped list
  have hget : ∀ (l : List (Bytes × Val)) (n : Bytes) (o : Val) (g : Bytes → Val → Val), GoMap.get? l n = some o →
      GoMap.get? (l.map fun e => (e.1, g e.1 e.2)) n = some (g n o) := by
    intro l n o g h
    induction l with
    | nil => simp [GoMap.get?] at h
    | cons e l ih =>
      simp only [GoMap.get?, List.map_cons] at h ⊢
      split at h
      · rename_i hk; simp at h; subst h; simp [hk]
      · rename_i hk; simp only [hk, if_false]; exact ih h
  have hleaf : ∀ f, pairExt.leaf f = pairLeaf := fun _ => rfl
  rw [hfields, hget tgt.fields f.name old
    (fun n v => ((m.filter fun x => (x.1 = b "a" ∧ n = b "A") ∨ (x.1 = b "b" ∧ n = b "B")).map Prod.snd).foldl
          (fun v j => (pairLeaf v j).getD v) v) hold, hleaf, pairFold]
  have hfind : ∀ key, findField pairExt
      [.mk (b "A") true (b "a") (.leaf 0) none, .mk (b "B") true (b "b") (.ptr (.struct 1)) none] key
      = if key = b "a" then some 0 else if key = b "b" then some 1 else none := by
    intro key
    have ka : (Fld.mk (b "A") true (b "a") (.leaf 0) none).key = b "a" := rfl
    have kb : (Fld.mk (b "B") true (b "b") (.ptr (.struct 1)) none).key = b "b" := rfl
    unfold findField
    by_cases h1 : key = b "a"
    · subst h1; simp [List.findIdx?, List.findIdx?.go, ka, kb]
    · by_cases h2 : key = b "b"
      · subst h2; simp [List.findIdx?, List.findIdx?.go, ka, kb, h1, Ne.symm h1]
      · have h1' : ¬ b "a" = key := fun e => h1 e.symm
        have h2' : ¬ b "b" = key := fun e => h2 e.symm
        simp [List.findIdx?, List.findIdx?.go, ka, kb, h1, h2, h1', h2', pairExt]
  rw [valuesOf_eq]
  simp only [hfind]
  congr 3
  have hab : b "a" ≠ b "b" := by decide
  have hAB : b "A" ≠ b "B" := by decide
  have hBA : b "B" ≠ b "A" := by decide
  have : i = 0 ∨ i = 1 := by
    have := (List.getElem?_eq_some_iff.1 hf).1
    simp at this; omega
  rcases this with rfl | rfl
  · simp at hf; subst hf
    refine List.filter_congr fun x _ => ?_
    simp only [Fld.name, hAB]
    by_cases hx : x.1 = b "a"
    · simp [hx]
    · by_cases hx2 : x.1 = b "b" <;> simp [hx, hx2, hAB, Ne.symm hab]
  · simp at hf; subst hf
    refine List.filter_congr fun x _ => ?_
    simp only [Fld.name, hBA]
    by_cases hx : x.1 = b "a"
    · simp [hx, hab, hBA]
    · by_cases hx2 : x.1 = b "b" <;> simp [hx, hx2, hBA, Ne.symm hab]

def pairSpec : Cls := .mk (b "Pair") [(b "B", .single leafSpec)]

/-- An example for `C39_as_json_partial`: the field `A` was 7 and the document sets it. -/
example : PlainLike pairEnv pairExt ∧
    decode pairEnv pairExt 9 [] [] ⟨0, [(b "A", .leaf 7), (b "B", .leaf 0)]⟩ pairSpec
      (some (.obj [(b "a", .atom (b "xx")), (b "b", .null)]))
      = .ret ⟨0, [(b "A", .leaf 2), (b "B", .ref 1 [])]⟩ false ∧
    jsonUnmarshal pairEnv pairExt 9 [] ⟨0, [(b "A", .leaf 7), (b "B", .leaf 0)]⟩ none
      (some (.obj [(b "a", .atom (b "xx")), (b "b", .null)]))
      = .ret ⟨0, [(b "A", .leaf 2), (b "B", .leaf 0)]⟩ false := by
  refine ⟨pairPlain, ?_, rfl⟩
  rw [decode_eqN 3 (by simp [Cls.depth, CVal.depth, depthF, pairSpec, leafSpec])]
  rfl

/-- C39 does not hold in general: the document does not mention `A`; `json.Unmarshal` keeps its
value, `JsonUnmarshal` resets it to zero. -/
theorem C39_reset_violated :
    decode pairEnv pairExt 9 [] [] ⟨0, [(b "A", .leaf 7), (b "B", .leaf 0)]⟩ pairSpec
      (some (.obj [(b "b", .null)])) = .ret ⟨0, [(b "A", .leaf 0), (b "B", .ref 1 [])]⟩ false ∧
    jsonUnmarshal pairEnv pairExt 9 [] ⟨0, [(b "A", .leaf 7), (b "B", .leaf 0)]⟩ none
      (some (.obj [(b "b", .null)])) = .ret ⟨0, [(b "A", .leaf 7), (b "B", .leaf 0)]⟩ false := by
  refine ⟨?_, rfl⟩
  rw [decode_eqN 3 (by simp [Cls.depth, CVal.depth, depthF, pairSpec, leafSpec])]
  rfl

/-! ## C40: the target after an error -/

theorem fieldLoop_err {env : Env} {ord} {el : List Bytes → Cls → Doc → Out Inst} {path} {om : List (Bytes × CVal)}
    (l : List (Fld × Raw)) {tgt t' : Inst} (h : fieldLoop env ord el path om l tgt = .ret t' true)
    (hn : (l.map fun x => x.1.name).Nodup) :
    ∃ k < l.length, (∀ n, n ∉ (l.take k).map (fun x => x.1.name) → GoMap.get? t'.fields n = GoMap.get? tgt.fields n) ∧
      (∀ x ∈ l.take k, ∃ o, fieldValue env ord el path om x.1 x.2 = .ok o ∧
        GoMap.get? t'.fields x.1.name = (o <|> GoMap.get? tgt.fields x.1.name)) ∧
      ∀ x, l[k]? = some x → fieldValue env ord el path om x.1 x.2 = .err := by
  induction l generalizing tgt with
  | nil => simp [fieldLoop] at h
  | cons x l ih =>
    obtain ⟨f, raw⟩ := x
    simp only [List.map_cons, List.nodup_cons] at hn
    simp only [fieldLoop] at h
    split at h
    · rename_i v hv
      obtain ⟨k, hk, h1, h2, h3⟩ := ih h hn.2
      have hnot : f.name ∉ (l.take k).map (fun x => x.1.name) := fun hc =>
        hn.1 (by
          obtain ⟨x, hx, e⟩ := List.mem_map.1 hc
          exact List.mem_map.2 ⟨x, List.mem_of_mem_take hx, e⟩)
      refine ⟨k + 1, by simpa using hk, ?_, ?_, ?_⟩
      · intro n hnn
        simp only [List.take_succ_cons, List.map_cons, List.mem_cons, not_or] at hnn
        rw [h1 n hnn.2]
        exact GoMap.get?_set_ne (fun e => hnn.1 e.symm)
      · intro x hx
        simp only [List.take_succ_cons, List.mem_cons] at hx
        rcases hx with rfl | hx
        · refine ⟨some v, hv, ?_⟩
          rw [h1 _ hnot]
          simp [GoMap.get?_set_self]
        · obtain ⟨o, ho, hgo⟩ := h2 x hx
          refine ⟨o, ho, ?_⟩
          rw [hgo]
          have : f.name ≠ x.1.name := by
            intro e; apply hnot; rw [e]
            exact List.mem_map.2 ⟨_, hx, rfl⟩
          rw [GoMap.get?_set_ne this]
      · intro x hx; exact h3 x (by simpa using hx)
    · rename_i hv
      obtain ⟨k, hk, h1, h2, h3⟩ := ih h hn.2
      have hnot : f.name ∉ (l.take k).map (fun x => x.1.name) := fun hc =>
        hn.1 (by
          obtain ⟨x, hx, e⟩ := List.mem_map.1 hc
          exact List.mem_map.2 ⟨x, List.mem_of_mem_take hx, e⟩)
      refine ⟨k + 1, by simpa using hk, ?_, ?_, ?_⟩
      · intro n hnn
        simp only [List.take_succ_cons, List.map_cons, List.mem_cons, not_or] at hnn
        exact h1 n hnn.2
      · intro x hx
        simp only [List.take_succ_cons, List.mem_cons] at hx
        rcases hx with rfl | hx
        · exact ⟨none, hv, by rw [h1 _ hnot]; simp⟩
        · exact h2 x hx
      · intro x hx; exact h3 x (by simpa using hx)
    · rename_i hv
      simp only [Res.ret.injEq, and_true] at h
      subst h
      refine ⟨0, by simp, by simp, by simp, ?_⟩
      intro x hx
      simp at hx; subst hx; exact hv
    · simp at h
    · simp at h

/-- After an error (with a specification): either the document as a whole was refused and the target is
unchanged; or there is a field such that this field, all later ones and everything outside the
exported fields are unchanged, while the fields before it without a specification hold what the
document says. -/
theorem C40_prefix_partial {env : Env} {ext : Ext} {fuel ref path tgt spec dat t'} (hne : spec.fields ≠ [])
    (h : decode env ext fuel ref path tgt spec dat = .ret t' true) :
    t' = tgt ∨ ∃ m k f, membersOf dat = some m ∧ (loopFields (env.struct tgt.cls).fields)[k]? = some f ∧
      (GoMap.get? spec.fields f.name).isSome ∧ t'.cls = tgt.cls ∧
      (∀ n, n ∉ ((loopFields (env.struct tgt.cls).fields).take k).map Fld.name →
        GoMap.get? t'.fields n = GoMap.get? tgt.fields n) ∧
      ∀ (i : Nat) (g : Fld), i < k → (loopFields (env.struct tgt.cls).fields)[i]? = some g →
        GoMap.get? spec.fields g.name = none →
        GoMap.get? t'.fields g.name
          = (valuesOf ext (loopFields (env.struct tgt.cls).fields) i m).foldlM (ext.leaf g) (ext.zero g.ty) := by
  have hcls := decode_cls h
  rw [decode_eq] at h
  unfold jsonUnmarshalStep at h
  rw [if_neg hne] at h
  split at h
  · simp at h
  · rename_i reg hreg
    simp only at h
    split at h
    · simp at h
    · rename_i hnd
      have hnd := Classical.not_not.1 (fun hc => hnd (Or.inl hc))
      split at h
      · simp only [Res.ret.injEq, and_true] at h; exact Or.inl h.symm
      · rename_i raws hraws
        right
        obtain ⟨m, hm, hl, hget⟩ := rawDecode_get hraws
        have hmap : ((loopFields (env.struct tgt.cls).fields).zip raws).map (fun x => x.1.name)
            = (loopFields (env.struct tgt.cls).fields).map Fld.name := by
          rw [show (fun x : Fld × Raw => x.1.name) = Fld.name ∘ Prod.fst from rfl, ← List.map_map,
            List.map_fst_zip (by omega)]
        obtain ⟨k, hk, h1, h2, h3⟩ := fieldLoop_err _ h (by rw [hmap]; exact hnd)
        have hk' : k < (loopFields (env.struct tgt.cls).fields).length := by
          simp at hk; omega
        have hkf := List.getElem?_eq_getElem hk'
        obtain ⟨raw, hr, hv⟩ := hget k _ hkf
        have herr := h3 (_, raw) (List.getElem?_zip_eq_some.2 ⟨hkf, hr⟩)
        refine ⟨m, k, _, hm, hkf, ?_, hcls, ?_, ?_⟩
        · -- a field without a specification cannot fail here
          cases hq : GoMap.get? spec.fields (loopFields (env.struct tgt.cls).fields)[k].name with
          | some _ => rfl
          | none =>
            exfalso
            have hkk : rawKind env spec.fields (loopFields (env.struct tgt.cls).fields)[k] = .val := by
              simp [rawKind, hq]
            rw [hkk] at hv
            obtain ⟨w, rfl, _⟩ := rawFold_val _ hv
            simp [fieldValue, hq] at herr
        · intro n hn
          apply h1
          rw [List.map_take, hmap]
          rw [List.map_take] at hn
          exact hn
        · intro i g hi hg hs
          obtain ⟨rawi, hri, hvi⟩ := hget i g hg
          have hmem : (g, rawi) ∈ ((loopFields (env.struct tgt.cls).fields).zip raws).take k := by
            apply List.mem_of_getElem? (i := i)
            rw [List.getElem?_take_of_lt hi, List.getElem?_zip_eq_some]; exact ⟨hg, hri⟩
          obtain ⟨o, ho, hgo⟩ := h2 _ hmem
          have hkk : rawKind env spec.fields g = .val := by simp [rawKind, hs]
          rw [hkk] at hvi
          obtain ⟨w, rfl, hw⟩ := rawFold_val _ hvi
          simp only [fieldValue, hs, Out.ok.injEq] at ho
          subst ho
          rw [hw]
          simpa using hgo

/-- Text that is not a JSON object (nor `null`) leaves the target unchanged. -/
theorem C40_document {env : Env} {ext : Ext} {fuel ref path tgt spec dat t'} (hne : spec.fields ≠ [])
    (hd : ∀ m, dat ≠ some (.obj m)) (hd' : dat ≠ some .null)
    (h : decode env ext fuel ref path tgt spec dat = .ret t' true) : t' = tgt := by
  rcases C40_prefix_partial hne h with h1 | ⟨m, _, _, hm, _⟩
  · exact h1
  · unfold membersOf at hm
    split at hm
    · exact absurd rfl (hd _)
    · exact absurd rfl hd'
    · simp at hm

example : decode pairEnv pairExt 9 [] [] ⟨0, [(b "A", .leaf 7), (b "B", .leaf 0)]⟩ pairSpec
    (some (.arr [.null])) = .ret ⟨0, [(b "A", .leaf 7), (b "B", .leaf 0)]⟩ true := by
  rw [decode_eqN 3 (by simp [Cls.depth, CVal.depth, depthF, pairSpec, leafSpec])]
  rfl

/-- C40 does not hold in general: the error in `B` (a class that is not registered) comes after
`A` has been overwritten. -/
theorem C40_overwritten_violated :
    decode pairEnv pairExt 9 [] [] ⟨0, [(b "A", .leaf 7), (b "B", .leaf 0)]⟩ (.mk (b "Pair") [(b "B", .single ghost)])
      (some (.obj [(b "a", .atom (b "xx")), (b "b", .null)]))
      = .ret ⟨0, [(b "A", .leaf 2), (b "B", .leaf 0)]⟩ true := by
  rw [decode_eqN 3 (by simp [Cls.depth, CVal.depth, depthF, ghost])]
  rfl

end Verif.Det
