import Verif.Spec.TypedMarks
import Verif.Lemmas.Typed
/-! # Lemmas about marks in functions on collections -/
namespace Verif.Typed
open Funcs (Mark sensitiveMark)

theorem stripL_eq (l : List MV) : stripL l = l.map MV.strip := by
  induction l with
  | nil => rfl
  | cons v l ih => simp only [stripL, List.map_cons, ih]

theorem stripO_eq (m : List (Bytes × MV)) : stripO m = m.map fun p => (p.1, p.2.strip) := by
  induction m with
  | nil => rfl
  | cons p m ih => obtain ⟨k, v⟩ := p; simp only [stripO, stripP, List.map_cons, ih]

theorem marks_setMarks (ms : List Mark) (v : MV) : (v.setMarks ms).marks = ms := by cases v <;> rfl

theorem strip_setMarks (ms : List Mark) (v : MV) : (v.setMarks ms).strip = v.strip := by cases v <;> rfl

theorem marks_withMarks (v : MV) (ms : List Mark) : (v.withMarks ms).marks = v.marks ++ ms := marks_setMarks _ _

theorem strip_withMarks (v : MV) (ms : List Mark) : (v.withMarks ms).strip = v.strip := strip_setMarks _ _

theorem strip_unmark (v : MV) : v.unmark.strip = v.strip := strip_setMarks _ _

theorem withMarks_nil (v : MV) : v.withMarks [] = v := by
  cases v <;> simp only [MV.withMarks, MV.marks, MV.setMarks, List.append_nil]

mutual
theorem deep_iff (a : Mark) : ∀ v : MV, a ∈ v.deep ↔ Carries a v
  | .leaf ms v => by
    simp only [MV.deep]
    exact ⟨fun h => .here h, fun h => by cases h; assumption⟩
  | .list ms e l => by
    simp only [MV.deep, List.mem_append, deepL_iff a l]
    constructor
    · rintro (h | ⟨v, hv, h⟩)
      · exact .here h
      · exact .list hv h
    · intro h
      cases h with
      | here h => exact .inl h
      | list hv h => exact .inr ⟨_, hv, h⟩
  | .map ms e l => by
    simp only [MV.deep, List.mem_append, deepO_iff a l]
    constructor
    · rintro (h | ⟨v, hv, h⟩)
      · exact .here h
      · exact .map hv h
    · intro h
      cases h with
      | here h => exact .inl h
      | map hv h => exact .inr ⟨_, hv, h⟩
  | .tup ms l => by
    simp only [MV.deep, List.mem_append, deepL_iff a l]
    constructor
    · rintro (h | ⟨v, hv, h⟩)
      · exact .here h
      · exact .tup hv h
    · intro h
      cases h with
      | here h => exact .inl h
      | tup hv h => exact .inr ⟨_, hv, h⟩
  | .obj ms l => by
    simp only [MV.deep, List.mem_append, deepO_iff a l]
    constructor
    · rintro (h | ⟨v, hv, h⟩)
      · exact .here h
      · exact .obj hv h
    · intro h
      cases h with
      | here h => exact .inl h
      | obj hv h => exact .inr ⟨_, hv, h⟩
theorem deepL_iff (a : Mark) : ∀ l : List MV, a ∈ deepL l ↔ ∃ v ∈ l, Carries a v
  | [] => by simp [deepL]
  | v :: l => by simp [deepL, deep_iff a v, deepL_iff a l]
theorem deepO_iff (a : Mark) : ∀ l : List (Bytes × MV), a ∈ deepO l ↔ ∃ p ∈ l, Carries a p.2
  | [] => by simp [deepO]
  | p :: l => by simp only [deepO, List.mem_append, deepP_iff a p, deepO_iff a l, List.mem_cons, exists_eq_or_imp]
theorem deepP_iff (a : Mark) : ∀ p : Bytes × MV, a ∈ deepP p ↔ Carries a p.2
  | (_, v) => by simp only [deepP, deep_iff a v]
end

/-! ## `Same` -/

mutual
theorem Same.refl (a : Mark) : ∀ v : MV, Same a v v
  | .leaf ms v => .leaf ms v
  | .list ms e l => .list ms e rfl fun i v v' h h' => by
      cases h.symm.trans h'; exact sameL a l v (List.mem_of_getElem? h)
  | .map ms e l => .map ms e rfl fun i v v' h h' => by
      cases h.symm.trans h'; exact sameO a l v (List.mem_of_getElem? h)
  | .tup ms l => .tup ms rfl fun i v v' h h' => by
      cases h.symm.trans h'; exact sameL a l v (List.mem_of_getElem? h)
  | .obj ms l => .obj ms rfl fun i v v' h h' => by
      cases h.symm.trans h'; exact sameO a l v (List.mem_of_getElem? h)
theorem sameL (a : Mark) : ∀ (l : List MV), ∀ v ∈ l, Same a v v
  | [], _, h => by cases h
  | w :: l, v, h => by
    rcases List.mem_cons.1 h with h | h
    · rw [h]; exact Same.refl a w
    · exact sameL a l v h
theorem sameO (a : Mark) : ∀ (l : List (Bytes × MV)), ∀ p ∈ l, Same a p.2 p.2
  | [], _, h => by cases h
  | w :: l, v, h => by
    rcases List.mem_cons.1 h with h | h
    · rw [h]; exact sameP a w
    · exact sameO a l v h
theorem sameP (a : Mark) : ∀ p : Bytes × MV, Same a p.2 p.2
  | (_, v) => Same.refl a v
end

theorem list_ext' {α : Type} {l l' : List α} (len : l.length = l'.length)
    (each : ∀ (i : Nat) (v v' : α), l[i]? = some v → l'[i]? = some v' → v = v') : l = l' := by
  apply List.ext_getElem? ; intro i
  cases h : l[i]? with
  | none => rw [List.getElem?_eq_none_iff] at h; exact (List.getElem?_eq_none_iff.2 (len ▸ h)).symm
  | some v =>
    obtain ⟨w, hw⟩ := len_get len h
    rw [hw, each i v w h hw]

theorem pairs_ext {α : Type} {l l' : List (Bytes × α)} (names : l.map (·.1) = l'.map (·.1))
    (each : ∀ (i : Nat) (v v' : Bytes × α), l[i]? = some v → l'[i]? = some v' → v.2 = v'.2) : l = l' := by
  refine list_ext' (by simpa using congrArg List.length names) fun i v v' hv hv' => Prod.ext ?_ (each i v v' hv hv')
  have := congrArg (·[i]?) names
  simpa only [List.getElem?_map, hv, hv', Option.map_some, Option.some.injEq] using this

/-- Values that differ in marked parts only are equal if there are none. -/
theorem Same.eq {a : Mark} {v w : MV} (h : Same a v w) : ¬ Carries a v → v = w := by
  induction h with
  | hidden hv _ => exact fun hn => absurd (.here hv) hn
  | leaf => exact fun _ => rfl
  | list ms e len each ih =>
    intro hn
    rw [list_ext' len fun i v v' hv hv' => ih i v v' hv hv' fun hc => hn (.list (List.mem_of_getElem? hv) hc)]
  | map ms e names each ih =>
    intro hn
    rw [pairs_ext names fun i v v' hv hv' => ih i v v' hv hv' fun hc => hn (.map (List.mem_of_getElem? hv) hc)]
  | tup ms len each ih =>
    intro hn
    rw [list_ext' len fun i v v' hv hv' => ih i v v' hv hv' fun hc => hn (.tup (List.mem_of_getElem? hv) hc)]
  | obj ms names each ih =>
    intro hn
    rw [pairs_ext names fun i v v' hv hv' => ih i v v' hv hv' fun hc => hn (.obj (List.mem_of_getElem? hv) hc)]

theorem Same.symm {a : Mark} {v w : MV} (h : Same a v w) : Same a w v := by
  induction h with
  | hidden hv hw => exact .hidden hw hv
  | leaf => exact .leaf _ _
  | list ms e len each ih => exact .list ms e len.symm fun i v v' hv hv' => ih i v' v hv' hv
  | map ms e names each ih => exact .map ms e names.symm fun i v v' hv hv' => ih i v' v hv' hv
  | tup ms len each ih => exact .tup ms len.symm fun i v v' hv hv' => ih i v' v hv' hv
  | obj ms names each ih => exact .obj ms names.symm fun i v v' hv hv' => ih i v' v hv' hv

theorem Same.carries {a : Mark} {v w : MV} (h : Same a v w) (hc : Carries a v) : Carries a w :=
  Classical.byContradiction fun hn => hn (h.symm.eq hn ▸ hc)

theorem Same.withMarks {a : Mark} {v w : MV} (h : Same a v w) (ms : List Mark) : Same a (v.withMarks ms) (w.withMarks ms) := by
  cases h with
  | hidden hv hw =>
    exact .hidden (by rw [marks_withMarks]; exact List.mem_append_left _ hv) (by rw [marks_withMarks]; exact List.mem_append_left _ hw)
  | leaf => exact .leaf _ _
  | list ms e len each => exact .list _ e len each
  | map ms e names each => exact .map _ e names each
  | tup ms len each => exact .tup _ len each
  | obj ms names each => exact .obj _ names each

theorem Same.marks {a : Mark} {v w : MV} (h : Same a v w) (hn : a ∉ v.marks) : v.marks = w.marks := by
  cases h with
  | hidden hv _ => exact absurd hv hn
  | _ => rfl

theorem Same.unmark {a : Mark} {v w : MV} (h : Same a v w) (hn : a ∉ v.marks) (ms : List Mark) : Same a (v.setMarks ms) (w.setMarks ms) := by
  cases h with
  | hidden hv _ => exact absurd hv hn
  | leaf => exact .leaf _ _
  | list _ e len each => exact .list _ e len each
  | map _ e names each => exact .map _ e names each
  | tup _ len each => exact .tup _ len each
  | obj _ names each => exact .obj _ names each

/-! ## Parts of a value -/

theorem get_map {α β : Type} (f : α → β) (m : List (Bytes × α)) (k : Bytes) :
    GoMap.get? (m.map fun p => (p.1, f p.2)) k = (GoMap.get? m k).map f := by
  induction m with
  | nil => rfl
  | cons p m ih =>
    obtain ⟨k', v⟩ := p
    simp only [List.map_cons, GoMap.get?]
    split
    · rfl
    · exact ih

/-- The entry of a map or an object without marks. -/
def V.get (v : V) (k : Bytes) : Option V :=
  match v with
  | .obj m => GoMap.get? m k
  | .map _ m => GoMap.get? m k
  | _ => none

theorem get_strip (v : MV) (k : Bytes) : (v.get k).map MV.strip = v.strip.get k := by
  cases v with
  | leaf ms v =>
    cases v with
    | obj m => simp only [MV.get, MV.strip, V.get, Option.map_map]; cases GoMap.get? m k <;> rfl
    | map e m => simp only [MV.get, MV.strip, V.get, Option.map_map]; cases GoMap.get? m k <;> rfl
    | _ => rfl
  | list => rfl
  | tup => rfl
  | map ms e m => simp only [MV.get, MV.strip, V.get, stripO_eq, get_map]
  | obj ms m => simp only [MV.get, MV.strip, V.get, stripO_eq, get_map]

theorem get_carries {a : Mark} {v r : MV} {k : Bytes} (h : v.get k = some r) (hc : Carries a r) : Carries a v := by
  cases v with
  | leaf ms v =>
    have leafy : ∀ (o : Option V), o.map (MV.leaf []) = some r → False := by
      intro o ho
      cases o with
      | none => cases ho
      | some w => cases ho; cases hc with | here h => cases h
    cases v with
    | obj m => exact (leafy _ h).elim
    | map e m => exact (leafy _ h).elim
    | _ => cases h
  | list => cases h
  | tup => cases h
  | map ms e m => exact .map (get_mem h) hc
  | obj ms m => exact .obj (get_mem h) hc

theorem get_same {a : Mark} {l : List (Bytes × MV)} : ∀ {l' : List (Bytes × MV)}, l.map (·.1) = l'.map (·.1) →
    (∀ (i : Nat) (p p' : Bytes × MV), l[i]? = some p → l'[i]? = some p' → Same a p.2 p'.2) → ∀ k,
    (GoMap.get? l k = none ∧ GoMap.get? l' k = none) ∨ ∃ r r', GoMap.get? l k = some r ∧ GoMap.get? l' k = some r' ∧ Same a r r' := by
  induction l with
  | nil =>
    intro l' hn _ k
    cases l' with
    | nil => exact .inl ⟨rfl, rfl⟩
    | cons => cases hn
  | cons p l ih =>
    intro l' hn he k
    cases l' with
    | nil => cases hn
    | cons p' l' =>
      obtain ⟨k1, v⟩ := p
      obtain ⟨k2, v'⟩ := p'
      simp only [List.map_cons, List.cons.injEq] at hn
      obtain ⟨hk, hn⟩ := hn
      obtain rfl : k1 = k2 := hk
      simp only [GoMap.get?]
      split
      · exact .inr ⟨v, v', rfl, rfl, he 0 _ _ rfl rfl⟩
      · exact ih hn (fun i p p' h h' => he (i + 1) p p' h h') k

theorem Same.get {a : Mark} {v w : MV} (h : Same a v w) (hn : a ∉ v.marks) (k : Bytes) :
    (v.get k = none ∧ w.get k = none) ∨ ∃ r r', v.get k = some r ∧ w.get k = some r' ∧ Same a r r' := by
  cases h with
  | hidden hv _ => exact absurd hv hn
  | leaf ms v =>
    cases h : (MV.leaf ms v).get k with
    | none => exact .inl ⟨rfl, rfl⟩
    | some r => exact .inr ⟨r, r, rfl, rfl, Same.refl a r⟩
  | list => exact .inl ⟨rfl, rfl⟩
  | tup => exact .inl ⟨rfl, rfl⟩
  | map ms e names each => exact get_same names each k
  | obj ms names each => exact get_same names each k

theorem get_setMarks (v : MV) (ms : List Mark) (k : Bytes) : (v.setMarks ms).get k = v.get k := by
  cases v with
  | leaf _ v => cases v <;> rfl
  | _ => rfl

theorem asString_iff (v : MV) (s : Bytes) : v.unmark.asString = some s ↔ v.strip = .str s := by
  cases v with
  | leaf ms v =>
    cases v with
    | str s' => simp [MV.unmark, MV.setMarks, MV.asString, MV.strip]
    | _ => simp [MV.unmark, MV.setMarks, MV.asString, MV.strip]
  | _ => simp [MV.unmark, MV.setMarks, MV.asString, MV.strip]

theorem asString_strip (v : MV) : v.unmark.asString = match v.strip with | .str s => some s | _ => none := by
  cases v with
  | leaf ms v => cases v <;> rfl
  | _ => rfl

/-! ## How a call ends -/

theorem mreturnType_cases {f : MSpec} {args : List MV} {T : Ty} {d : Bool} (h : mreturnType f args = some (T, d)) :
    (d = true ∧ checkArgs f.params f.var (strips args) = .dyn ∧ T = .dyn) ∨
      (d = false ∧ checkArgs f.params f.var (strips args) = .ok ∧ f.type (seen f args) = some T) := by
  unfold mreturnType at h
  split at h
  · split at h
    · cases h
    · next hc => cases h; exact .inl ⟨rfl, hc, rfl⟩
    · next hc =>
      cases ht : f.type (seen f args) with
      | none => rw [ht] at h; cases h
      | some T' => rw [ht] at h; cases h; exact .inr ⟨rfl, hc, rfl⟩
  · cases h

/-- The three ways to a value. -/
theorem mcall_ok {f : MSpec} {args : List MV} {r : MV} (h : mcall f args = .ok r) :
    (checkArgs f.params f.var (strips args) = .dyn ∧ r = .leaf [] (.unk .dyn)) ∨
    ∃ T, checkArgs f.params f.var (strips args) = .ok ∧ f.type (seen f args) = some T ∧
      ((blocked f.params f.var (strips args) = true ∧ r = .leaf (resultMarks f args) (.unk T)) ∨
      (blocked f.params f.var (strips args) = false ∧ ∃ r0, f.impl (seen f args) T = some r0 ∧ r = r0.withMarks (resultMarks f args))) := by
  unfold mcall at h
  split at h
  · cases h
  · next T hr =>
    rcases mreturnType_cases hr with ⟨_, hc, rfl⟩ | ⟨hd, _⟩
    · cases h; exact .inl ⟨hc, rfl⟩
    · cases hd
  · next T hr =>
    rcases mreturnType_cases hr with ⟨hd, _⟩ | ⟨_, hc, ht⟩
    · cases hd
    refine .inr ⟨T, hc, ht, ?_⟩
    split at h
    · next hb => cases h; exact .inl ⟨hb, rfl⟩
    · next hb =>
      refine .inr ⟨by simpa using hb, ?_⟩
      split at h
      · cases h
      · next r0 hi =>
        refine ⟨r0, hi, ?_⟩
        dsimp only at h
        split at h
        · split at h
          · cases h
          · cases h; rfl
        · cases h

/-! ## Marks do not change values -/

/-- The function with marks does to the values what the other one does. -/
structure Refines (g : MSpec) (f : FSpec) : Prop where
  params : g.params = f.params
  var : g.var = f.var
  notNull : g.notNull = f.notNull
  type : ∀ args, checkArgs f.params f.var (strips args) = .ok → g.type (seen g args) = f.type (strips args)
  impl : ∀ args t, checkArgs f.params f.var (strips args) = .ok → blocked f.params f.var (strips args) = false →
    (g.impl (seen g args) t).map MV.strip = f.impl (strips args) t

theorem mreturnType_eq {g : MSpec} {f : FSpec} (h : Refines g f) (args : List MV) : mreturnType g args = returnType f (strips args) := by
  have ha : marity g args.length = arity f (strips args).length := by
    unfold marity arity
    rw [h.var, h.params]
    simp only [strips, List.length_map]
    cases f.var <;> rfl
  unfold mreturnType returnType
  rw [ha, h.params, h.var]
  split
  · cases hc : checkArgs f.params f.var (strips args) with
    | err => rfl
    | dyn => rfl
    | ok => dsimp only; rw [h.type args hc]
  · rfl

theorem mcall_strip {g : MSpec} {f : FSpec} (h : Refines g f) (args : List MV) : (mcall g args).strip = call f (strips args) := by
  have hr := mreturnType_eq h args
  unfold mcall call
  rw [← hr]
  cases hm : mreturnType g args with
  | none => rfl
  | some p =>
    obtain ⟨T, d⟩ := p
    cases d with
    | true => rfl
    | false =>
      dsimp only
      rw [h.params, h.var]
      rcases mreturnType_cases hm with ⟨hd, _⟩ | ⟨_, hc, ht⟩
      · cases hd
      rw [h.params, h.var] at hc
      cases hb : blocked f.params f.var (strips args) with
      | true => rfl
      | false =>
        have hi := h.impl args T hc hb
        simp only [Bool.false_eq_true, if_false]
        cases hg : g.impl (seen g args) T with
        | none =>
          rw [hg] at hi
          rw [← hi]; rfl
        | some r0 =>
          rw [hg] at hi
          rw [← hi]
          simp only [Option.map_some, MV.ty, strip_withMarks, h.notNull]
          split
          · split
            · rfl
            · simp only [MOut.strip, strip_withMarks]
          · rfl

theorem strips_leaf (l : List V) : strips (l.map (.leaf [])) = l := by
  induction l with
  | nil => rfl
  | cons v l ih =>
    simp only [List.map_cons, strips] at ih ⊢
    rw [ih]; rfl

theorem plain_refines (f : FSpec) : Refines (plain f) f where
  params := rfl
  var := rfl
  notNull := rfl
  type args _ := by simp only [plain, seen, Bool.false_eq_true, if_false, strips_leaf]
  impl args t _ _ := by
    simp only [plain, seen, Bool.false_eq_true, if_false, strips_leaf, Option.map_map]
    cases f.impl (strips args) t <;> rfl

theorem length_refines (x : Ext) (conv : MConv) : Refines ((MFn.fn .length).spec x conv) (Fn.length.spec x) where
  params := rfl
  var := rfl
  notNull := rfl
  type args _ := by
    show mlengthType args = lengthType (strips args)
    match args with
    | [] => rfl
    | [v] => rfl
    | _ :: _ :: _ => rfl
  impl args t _ _ := by
    show (mlengthImpl x args t).map MV.strip = lengthImpl x (strips args) t
    match args with
    | [] => rfl
    | _ :: _ :: _ => rfl
    | [v] =>
      simp only [mlengthImpl, lengthImpl, strips, List.map_cons, List.map_nil, MV.ty, mstrlen, mlength]
      cases v.strip.ty with
      | str => cases v.strip <;> rfl
      | list e =>
        cases v.strip with
        | set _ l => dsimp only; split <;> rfl
        | _ => rfl
      | map e =>
        cases v.strip with
        | set _ l => dsimp only; split <;> rfl
        | _ => rfl
      | set e =>
        cases v.strip with
        | set _ l => dsimp only; split <;> rfl
        | _ => rfl
      | _ => rfl

theorem typ_refines (x : Ext) (conv : MConv) : Refines ((MFn.fn .typ).spec x conv) (Fn.typ.spec x) where
  params := rfl
  var := rfl
  notNull := rfl
  type args _ := rfl
  impl args t _ _ := by
    show (mtypImpl ((strips args).map (.leaf [])) t).map MV.strip = typImpl (strips args) t
    match args with
    | [] => rfl
    | [v] => rfl
    | _ :: _ :: _ => rfl

theorem to_refines {x : Ext} {conv : MConv} (hc : conv.Ok x) (w : Ty) : Refines ((MFn.fn (.to w)).spec x conv) ((Fn.to w).spec x) where
  params := rfl
  var := rfl
  notNull := rfl
  type args _ := by
    show mtoType x w args = toType x w (strips args)
    match args with
    | [] => rfl
    | [v] => rfl
    | _ :: _ :: _ => rfl
  impl args t _ _ := by
    show (mtoImpl conv args t).map MV.strip = toImpl x (strips args) t
    match args with
    | [] => rfl
    | [v] => exact hc.strip v t
    | _ :: _ :: _ => rfl

theorem conv_isSome {x : Ext} {conv : MConv} (hc : conv.Ok x) (v : MV) (t e : Ty) :
    (conv v t).map (fun _ => e) = (x.conv v.strip t).map fun _ => e := by
  rw [← hc.strip]; cases conv v t <;> rfl

theorem default_strip {x : Ext} {conv : MConv} (hc : conv.Ok x) (t : Ty) (ms : List Mark) (rest : List MV) :
    (mlookupDefault conv t ms rest).map MV.strip = lookupDefault x t (strips rest) := by
  match rest with
  | [] => rfl
  | _ :: _ :: _ => rfl
  | [d] =>
    show ((conv d t).map _).map MV.strip = x.conv d.strip t
    rw [← hc.strip]
    cases conv d t with
    | none => rfl
    | some r => simp only [Option.map_some, strip_withMarks]

theorem lookup_refines {x : Ext} {conv : MConv} (hc : conv.Ok x) : Refines ((MFn.fn .lookup).spec x conv) (Fn.lookup.spec x) where
  params := rfl
  var := rfl
  notNull := rfl
  type args hk := by
    show mlookupType conv args = lookupType x (strips args)
    match args with
    | [] => rfl
    | [_] => rfl
    | m :: k :: rest =>
      simp only [mlookupType, lookupType, strips, List.map_cons, List.length_map, MV.ty, asString_strip]
      split
      · cases m.strip.ty with
        | obj as =>
          dsimp only
          cases k.strip with
          | str s =>
            simp only [V.known, Bool.not_true, Bool.false_eq_true, if_false]
            cases GoMap.get? as s with
            | some t => rfl
            | none =>
              match rest with
              | [] => rfl
              | [d] => rfl
              | _ :: _ :: _ => rfl
          | _ => rfl
        | map e =>
          dsimp only
          match rest with
          | [] => rfl
          | [d] => exact conv_isSome hc d e e
          | _ :: _ :: _ => rfl
        | _ => rfl
      · rfl
  impl args t hk hb := by
    show (mlookupImpl conv args t).map MV.strip = lookupImpl x (strips args) t
    match args with
    | [] => rfl
    | [m] =>
      simp only [strips, List.map_cons, List.map_nil]
      cases m.strip <;> rfl
    | m :: k :: rest =>
      have hkm : m.strip.known = true := by
        simp only [Fn.spec, strips, List.map_cons, blocked, Bool.or_eq_false_iff, Bool.and_eq_false_iff] at hb
        simpa using hb.1
      simp only [mlookupImpl, strips, List.map_cons, asString_strip, strip_unmark, hkm]
      have hg : ∀ s, (m.unmark.get s).map MV.strip = m.strip.get s := fun s => by
        rw [get_strip, strip_unmark]
      cases hks : k.strip with
      | str s =>
        simp only [Bool.not_true, Bool.false_eq_true, if_false]
        have hgs := hg s
        cases hms : m.strip with
        | obj l =>
          rw [hms] at hgs
          simp only [lookupImpl, V.get] at hgs ⊢
          rw [← hgs]
          cases m.unmark.get s with
          | none => exact default_strip hc t _ rest
          | some v => simp only [Option.map_some, strip_withMarks]
        | map e l =>
          rw [hms] at hgs
          simp only [lookupImpl, V.get] at hgs ⊢
          rw [← hgs]
          cases m.unmark.get s with
          | none => exact default_strip hc t _ rest
          | some v => simp only [Option.map_some, strip_withMarks]
        | _ => simp only [lookupImpl, Option.map_none]
      | _ => cases m.strip <;> simp only [lookupImpl, Option.map_none]

theorem fn_refines {x : Ext} {conv : MConv} (hc : conv.Ok x) (f : Fn) : Refines ((MFn.fn f).spec x conv) (f.spec x) := by
  cases f with
  | length => exact length_refines x conv
  | lookup => exact lookup_refines hc
  | to w => exact to_refines hc w
  | typ => exact typ_refines x conv
  | _ => exact plain_refines _

/-! ## Marked parts stay hidden -/

theorem carries_withMarks {a : Mark} {v : MV} {ms : List Mark} (h : Carries a (v.withMarks ms)) : Carries a v ∨ a ∈ ms := by
  cases v <;> cases h <;> first
    | (rename_i h; rcases List.mem_append.1 h with h | h
       · exact .inl (.here h)
       · exact .inr h)
    | (rename_i h h'; exact .inl (.list h' h))
    | (rename_i h h'; exact .inl (.map h' h))
    | (rename_i h h'; exact .inl (.tup h' h))
    | (rename_i h h'; exact .inl (.obj h' h))

theorem SameAll.get {a : Mark} {l l' : List MV} (h : SameAll a l l') {i : Nat} {v : MV} (hv : l[i]? = some v) :
    ∃ v', l'[i]? = some v' ∧ Same a v v' ∧ v.ty = v'.ty := by
  obtain ⟨v', hv'⟩ := len_get h.1 hv
  exact ⟨v', hv', h.2 i v v' hv hv'⟩

theorem SameAll.symm {a : Mark} {l l' : List MV} (h : SameAll a l l') : SameAll a l' l :=
  ⟨h.1.symm, fun i v v' hv hv' => ⟨(h.2 i v' v hv' hv).1.symm, (h.2 i v' v hv' hv).2.symm⟩⟩

theorem SameAll.tail {a : Mark} {v v' : MV} {l l' : List MV} (h : SameAll a (v :: l) (v' :: l')) : SameAll a l l' :=
  ⟨Nat.succ.inj h.1, fun i w w' hw hw' => h.2 (i + 1) w w' hw hw'⟩

theorem SameAll.head {a : Mark} {v v' : MV} {l l' : List MV} (h : SameAll a (v :: l) (v' :: l')) : Same a v v' ∧ v.ty = v'.ty :=
  h.2 0 v v' rfl rfl

theorem SameAll.eq {a : Mark} {l l' : List MV} (h : SameAll a l l') (hn : ∀ v ∈ l, ¬ Carries a v) : l = l' :=
  list_ext' h.1 fun i v v' hv hv' => (h.2 i v v' hv hv').1.eq (hn v (List.mem_of_getElem? hv))

theorem SameAll.carries {a : Mark} {l l' : List MV} (h : SameAll a l l') (hc : ∃ v ∈ l, Carries a v) : ∃ v ∈ l', Carries a v := by
  obtain ⟨v, hv, hc⟩ := hc
  obtain ⟨i, hi⟩ := List.getElem?_of_mem hv
  obtain ⟨v', hv', hs, _⟩ := h.get hi
  exact ⟨v', List.mem_of_getElem? hv', hs.carries hc⟩

/-- No argument without a type: `Call` does not give up because of the types. -/
theorem check_typed {ps : List Param} {var : Option Param} (hp : ∀ p ∈ ps, p.allowNull = false ∨ p.allowDyn = true)
    (hv : ∀ p, var = some p → p.allowDyn = true) : ∀ {args : List V}, (∀ (i : Nat) v p, args[i]? = some v → ps[i]? = some p → p.allowDyn = false → v ≠ .unk .dyn) →
    checkArgs ps var args ≠ .dyn := by
  induction ps with
  | nil =>
    intro args
    induction args with
    | nil => intro _ h; simp [checkArgs] at h
    | cons v args ih =>
      intro h hd
      cases var with
      | none => simp [checkArgs] at hd
      | some p =>
        simp only [checkArgs] at hd
        split at hd
        · exact ih (fun i v p _ hp => by simp at hp) hd
        · unfold checkArg at hd
          split at hd
          · cases hd
          · split at hd
            · rw [if_pos (hv p rfl)] at hd; cases hd
            · split at hd <;> cases hd
  | cons p ps ih =>
    intro args h hd
    cases args with
    | nil => simp [checkArgs] at hd
    | cons v args =>
      simp only [checkArgs] at hd
      split at hd
      · exact ih (fun q hq => hp q (List.mem_cons_of_mem _ hq)) (fun i v q hi hq => h (i + 1) v q hi hq) hd
      · unfold checkArg at hd
        split at hd
        · cases hd
        · next hn =>
          split at hd
          · next ht =>
            split at hd
            · cases hd
            · next ha =>
              have ha : p.allowDyn = false := by simpa using ha
              have hu := h 0 v p rfl rfl ha
              rcases hp p (List.mem_cons_self ..) with hnull | hdyn
              · cases v <;> first
                  | (simp only [V.ty] at ht; cases ht; done)
                  | (simp only [V.ty] at ht; subst ht; first | exact hu rfl | (simp [V.isNull, hnull] at hn))
                  | (simp [V.ty] at ht)
              · rw [hdyn] at ha; cases ha
          · split at hd <;> cases hd

theorem mem_resultMarks {f : MSpec} (hf : f.marked = false) {a : Mark} {args : List MV} (h : ∃ v ∈ args, Carries a v) : a ∈ resultMarks f args := by
  obtain ⟨v, hv, hc⟩ := h
  simp only [resultMarks, hf, Bool.false_eq_true, if_false, List.mem_flatMap]
  exact ⟨v, hv, (deep_iff a v).2 hc⟩

theorem marks_resultMarks {a : Mark} {v : MV} {ms : List Mark} (h : a ∈ ms) : a ∈ (v.withMarks ms).marks := by
  rw [marks_withMarks]; exact List.mem_append_right _ h

/-- A function that does not deal with marks. -/
theorem plain_hides {f : MSpec} (hf : f.marked = false) {a : Mark} {args args' : List MV} (hs : SameAll a args args') {r r' : MV}
    (hd : checkArgs f.params f.var (strips args) ≠ .dyn) (hd' : checkArgs f.params f.var (strips args') ≠ .dyn)
    (h : mcall f args = .ok r) (h' : mcall f args' = .ok r') : Same a r r' := by
  by_cases hc : ∃ v ∈ args, Carries a v
  · have key : ∀ {args : List MV} {r : MV}, (∃ v ∈ args, Carries a v) → checkArgs f.params f.var (strips args) ≠ .dyn →
        mcall f args = .ok r → a ∈ r.marks := by
      intro args r hc hd h
      have hm := mem_resultMarks hf hc
      rcases mcall_ok h with ⟨hd', _⟩ | ⟨T, _, _, ⟨_, rfl⟩ | ⟨_, r0, _, rfl⟩⟩
      · exact absurd hd' hd
      · exact hm
      · exact marks_resultMarks hm
    exact .hidden (key hc hd h) (key (hs.carries hc) hd' h')
  · rw [← hs.eq fun v hv hcv => hc ⟨v, hv, hcv⟩, h] at h'
    cases h'
    exact Same.refl a r

theorem withMarks_hidden {a : Mark} {r r' : MV} {ms ms' : List Mark} (h : a ∈ ms) (h' : a ∈ ms') : Same a (r.withMarks ms) (r'.withMarks ms') :=
  .hidden (marks_resultMarks h) (marks_resultMarks h')

/-- Values that are not hidden and look the same have the same outer form. -/
theorem Same.elems {a : Mark} {v w : MV} (h : Same a v w) (hn : a ∉ v.marks) :
    v = w ∨ (∃ ms e l l', v = .list ms e l ∧ w = .list ms e l' ∧ l.length = l'.length) ∨
      (∃ ms e l l', v = .map ms e l ∧ w = .map ms e l' ∧ l.length = l'.length) ∨
      (∃ ms l l', v = .tup ms l ∧ w = .tup ms l' ∧ l.length = l'.length) ∨
      (∃ ms l l', v = .obj ms l ∧ w = .obj ms l' ∧ l.length = l'.length) := by
  cases h with
  | hidden hv _ => exact absurd hv hn
  | leaf => exact .inl rfl
  | list ms e len _ => exact .inr (.inl ⟨_, _, _, _, rfl, rfl, len⟩)
  | map ms e names _ => exact .inr (.inr (.inl ⟨_, _, _, _, rfl, rfl, by simpa using congrArg List.length names⟩))
  | tup ms len _ => exact .inr (.inr (.inr (.inl ⟨_, _, _, rfl, rfl, len⟩)))
  | obj ms names _ => exact .inr (.inr (.inr (.inr ⟨_, _, _, rfl, rfl, by simpa using congrArg List.length names⟩)))

theorem length_marks {x : Ext} {v r : MV} {t : Ty} (h : mlengthImpl x [v] t = some r) {a : Mark} (ha : a ∈ v.marks) : a ∈ r.marks := by
  have hd : a ∈ v.deep := (deep_iff a v).2 (.here ha)
  simp only [mlengthImpl] at h
  split at h
  · cases h; exact marks_resultMarks ha
  · cases h; exact marks_resultMarks ha
  · cases h; exact marks_resultMarks ha
  · cases h; unfold mstrlen; split <;> exact hd
  all_goals first
    | (cases h; unfold mlength; split
       · exact ha
       · exact ha
       · split <;> exact ha
       · exact ha)
    | cases h

theorem length_same {x : Ext} {a : Mark} {v w : MV} (hs : Same a v w) {t t' : Ty} {r r' : MV} (h : mlengthImpl x [v] t = some r)
    (h' : mlengthImpl x [w] t' = some r') : Same a r r' := by
  by_cases hn : a ∈ v.marks
  · by_cases hn' : a ∈ w.marks
    · exact .hidden (length_marks h hn) (length_marks h' hn')
    · exact absurd (hs.symm.marks hn' ▸ hn) hn'
  · rcases hs.elems hn with rfl | ⟨ms, e, l, l', rfl, rfl, len⟩ | ⟨ms, e, l, l', rfl, rfl, len⟩ | ⟨ms, l, l', rfl, rfl, len⟩ | ⟨ms, l, l', rfl, rfl, len⟩
    · have : r = r' := by
        have e : mlengthImpl x [v] t = mlengthImpl x [v] t' := rfl
        rw [h, h'] at e; exact Option.some.inj e
      exact this ▸ Same.refl a r
    · simp only [mlengthImpl, MV.ty, MV.strip, V.ty, mlength, MV.marks, stripL_eq, List.length_map, Option.some.injEq] at h h'
      subst h; subst h'; rw [len]; exact Same.refl a _
    · simp only [mlengthImpl, MV.ty, MV.strip, V.ty, mlength, MV.marks, stripO_eq, List.length_map, Option.some.injEq] at h h'
      subst h; subst h'; rw [len]; exact Same.refl a _
    · simp only [mlengthImpl, MV.ty, MV.strip, V.ty, tysL_eq, stripL_eq, MV.marks, List.length_map, Option.some.injEq] at h h'
      subst h; subst h'; rw [len]; exact Same.refl a _
    · simp only [mlengthImpl, MV.ty, MV.strip, V.ty, tysO_eq, stripO_eq, MV.marks, List.length_map, Option.some.injEq] at h h'
      subst h; subst h'; rw [len]; exact Same.refl a _

/-- How `lookup` comes to a value. -/
theorem lookup_cases {conv : MConv} {m k : MV} {rest : List MV} {t : Ty} {r : MV} (h : mlookupImpl conv (m :: k :: rest) t = some r) :
    ∃ s, k.strip = .str s ∧ ((m.strip.known = false ∧ r = (MV.leaf [] (.unk t)).withMarks (m.marks ++ k.marks)) ∨
      (m.strip.known = true ∧ ∃ v, m.get s = some v ∧ r = v.withMarks (m.marks ++ k.marks)) ∨
      (m.strip.known = true ∧ m.get s = none ∧ ∃ d d', rest = [d] ∧ conv d t = some d' ∧ r = d'.withMarks (m.marks ++ k.marks))) := by
  simp only [mlookupImpl, strip_unmark] at h
  cases hk : k.unmark.asString with
  | none => rw [hk] at h; cases h
  | some s =>
    rw [hk] at h
    refine ⟨s, (asString_iff k s).1 hk, ?_⟩
    cases hm : m.strip.known with
    | false => rw [hm] at h; cases h; exact .inl ⟨rfl, rfl⟩
    | true =>
      rw [hm] at h
      refine .inr ?_
      simp only [Bool.not_true, Bool.false_eq_true, if_false] at h
      have h2 : (match m.unmark.get s with
          | some v => some (v.withMarks (m.marks ++ k.marks))
          | none => mlookupDefault conv t (m.marks ++ k.marks) rest) = some r := by
        split at h
        · exact h
        · exact h
        · cases h
      rw [MV.unmark, get_setMarks] at h2
      cases hg : m.get s with
      | some v => rw [hg] at h2; cases h2; exact .inl ⟨rfl, v, rfl, rfl⟩
      | none =>
        rw [hg] at h2
        match rest, h2 with
        | [], h2 => cases h2
        | _ :: _ :: _, h2 => cases h2
        | [d], h2 =>
          simp only [mlookupDefault] at h2
          cases hd : conv d t with
          | none => rw [hd] at h2; cases h2
          | some d' => rw [hd] at h2; cases h2; exact .inr ⟨rfl, rfl, d, d', rfl, hd, rfl⟩

/-- The result of `lookup` has the marks of the map and of the key. -/
theorem lookup_marks {conv : MConv} {m k : MV} {rest : List MV} {t : Ty} {r : MV} (h : mlookupImpl conv (m :: k :: rest) t = some r) {a : Mark}
    (ha : a ∈ m.marks ++ k.marks) : a ∈ r.marks := by
  obtain ⟨s, _, ⟨_, rfl⟩ | ⟨_, v, _, rfl⟩ | ⟨_, _, d, d', _, _, rfl⟩⟩ := lookup_cases h
  · exact marks_resultMarks ha
  · exact marks_resultMarks ha
  · exact marks_resultMarks ha

theorem Same.strip {a : Mark} {v w : MV} (h : Same a v w) (hn : a ∉ v.marks) {s : Bytes} (hv : v.strip = .str s) : w.strip = .str s := by
  rcases h.elems hn with rfl | ⟨ms, e, l, l', rfl, rfl, len⟩ | ⟨ms, e, l, l', rfl, rfl, len⟩ | ⟨ms, l, l', rfl, rfl, len⟩ | ⟨ms, l, l', rfl, rfl, len⟩
  · exact hv
  all_goals cases hv

theorem lookup_same {conv : MConv} {x : Ext} (hc : conv.Ok x) {a : Mark} {args args' : List MV} (hs : SameAll a args args')
    (hk : ∀ (i : Nat) v, args[i]? = some v → i < 2 → v.strip.known = true)
    (hk' : ∀ (i : Nat) v, args'[i]? = some v → i < 2 → v.strip.known = true) {t t' : Ty} {r r' : MV}
    (ht : mlookupType conv args = some t) (ht' : mlookupType conv args' = some t')
    (h : mlookupImpl conv args t = some r) (h' : mlookupImpl conv args' t' = some r') : Same a r r' := by
  match args, args', hs with
  | [], _, _ => cases h
  | [_], _, _ => cases h
  | _ :: _ :: _, [], hs => cases hs.1
  | _ :: _ :: _, [_], hs => cases hs.1
  | m :: k :: rest, m' :: k' :: rest', hs =>
    obtain ⟨hm, htm⟩ := hs.head
    obtain ⟨hkk, _⟩ := hs.tail.head
    have hrest := hs.tail.tail
    by_cases hmm : a ∈ m.marks
    · have hmm' : a ∈ m'.marks := Classical.byContradiction fun hn => hn (hm.symm.marks hn ▸ hmm)
      exact .hidden (lookup_marks h (List.mem_append_left _ hmm)) (lookup_marks h' (List.mem_append_left _ hmm'))
    by_cases hkm : a ∈ k.marks
    · have hkm' : a ∈ k'.marks := Classical.byContradiction fun hn => hn (hkk.symm.marks hn ▸ hkm)
      exact .hidden (lookup_marks h (List.mem_append_right _ hkm)) (lookup_marks h' (List.mem_append_right _ hkm'))
    have em := hm.marks hmm
    have ek := hkk.marks hkm
    have hkn : m.strip.known = true := hk 0 m rfl (by decide)
    have hkn' : m'.strip.known = true := hk' 0 m' rfl (by decide)
    obtain ⟨s, hks, hres⟩ := lookup_cases h
    obtain ⟨s', hks', hres'⟩ := lookup_cases h'
    obtain rfl : s = s' := by
      have := hkk.strip hkm hks
      rw [hks'] at this; cases this; rfl
    rw [← em, ← ek] at hres'
    rcases hres with ⟨hu, _⟩ | ⟨_, v, hv, rfl⟩ | ⟨_, hv, d, d', rfl, hd, rfl⟩
    · rw [hkn] at hu; cases hu
    · rcases hres' with ⟨hu, _⟩ | ⟨_, w, hw, rfl⟩ | ⟨_, hw, _⟩
      · rw [hkn'] at hu; cases hu
      · rcases hm.get hmm s with ⟨hn, _⟩ | ⟨q, q', hq, hq', hqq⟩
        · rw [hv] at hn; cases hn
        · rw [hv] at hq; rw [hw] at hq'
          cases hq; cases hq'
          exact hqq.withMarks _
      · rcases hm.get hmm s with ⟨hn, _⟩ | ⟨q, q', _, hq', _⟩
        · rw [hv] at hn; cases hn
        · rw [hw] at hq'; cases hq'
    · rcases hres' with ⟨hu, _⟩ | ⟨_, w, hw, rfl⟩ | ⟨_, _, e, e', rfl, he, rfl⟩
      · rw [hkn'] at hu; cases hu
      · rcases hm.get hmm s with ⟨_, hn⟩ | ⟨q, q', hq, _, _⟩
        · rw [hw] at hn; cases hn
        · rw [hv] at hq; cases hq
      · obtain ⟨hde, hty⟩ := hrest.head
        have htt : t = t' := by
          have e1 : k.unmark.asString = some s := (asString_iff k s).2 hks
          have e2 : k'.unmark.asString = some s := (asString_iff k' s).2 hks'
          have kn : k.strip.known = true := by rw [hks]; rfl
          have kn' : k'.strip.known = true := by rw [hks']; rfl
          simp only [mlookupType, List.length_singleton, Nat.le_refl, if_true, e1, e2, kn, kn', ← htm, ← hty] at ht ht'
          cases hmt : m.ty with
          | obj as =>
            rw [hmt] at ht ht'
            dsimp only at ht ht'
            rw [ht] at ht'
            exact Option.some.inj ht'
          | map u =>
            rw [hmt] at ht ht'
            dsimp only at ht ht'
            cases hc1 : conv d u with
            | none => rw [hc1] at ht; cases ht
            | some _ =>
              rw [hc1] at ht; cases ht
              cases hc2 : conv e u with
              | none => rw [hc2] at ht'; cases ht'
              | some _ => rw [hc2] at ht'; cases ht'; rfl
          | _ => rw [hmt] at ht; cases ht
        subst htt
        exact (hc.same a d e t d' e' hde hty hd he).withMarks _

/-! ## All functions -/

/-- The functions that deal with marks on their own. -/
def MFn.own : MFn → Bool
  | .fn .length | .fn .lookup | .fn (.to _) | .sensitive | .nonsensitive => true
  | _ => false

theorem spec_marked (x : Ext) (conv : MConv) (f : MFn) : (f.spec x conv).marked = f.own := by
  cases f with
  | fn f => cases f <;> rfl
  | _ => rfl

theorem strips_get {args : List MV} {i : Nat} {v : V} (h : (strips args)[i]? = some v) : ∃ w, args[i]? = some w ∧ w.strip = v := by
  simp only [strips, List.getElem?_map, Option.map_eq_some_iff] at h
  exact h

/-- With arguments that are ready, `Call` does not give up because of the types. -/
theorem ready_check {x : Ext} {conv : MConv} {f : MFn} {args : List MV} (h : Ready f args) :
    checkArgs (f.spec x conv).params (f.spec x conv).var (strips args) ≠ .dyn := by
  apply check_typed
  · intro p hp
    cases f with
    | fn f =>
      cases f <;> simp only [MFn.spec, plain, Fn.spec, List.mem_cons, List.not_mem_nil, or_false, or_self] at hp <;>
        first | (rcases hp with rfl | rfl <;> simp) | (subst hp; simp [anyParam])
    | _ => simp only [MFn.spec, List.mem_singleton] at hp; subst hp; exact .inr rfl
  · intro p hp
    cases f with
    | fn f => cases f <;> cases hp <;> rfl
    | _ => cases hp
  · intro i v p hi hp hd hv
    obtain ⟨w, hw, rfl⟩ := strips_get hi
    have hr := h i w hw
    cases f with
    | fn f =>
      cases f <;> first
        | exact hr hv
        | (match i, hp with
           | 0, hp => cases hp; cases hd)
        | (match i, hp with
           | 0, hp => rw [hv] at hr; cases hr (by decide)
           | 1, hp => rw [hv] at hr; cases hr (by decide))
        | cases hp
    | _ =>
      match i, hp with
      | 0, hp => cases hp; cases hd

theorem blocked_free {var : Option Param} (hv : ∀ p, var = some p → p.allowUnk = true) : ∀ {ps : List Param} {args : List V},
    (∀ (i : Nat) v p, args[i]? = some v → ps[i]? = some p → v.known = true ∨ p.allowUnk = true) → blocked ps var args = false := by
  intro ps args
  induction args generalizing ps with
  | nil => intro _; cases ps <;> rfl
  | cons v args ih =>
    intro h
    cases ps with
    | nil =>
      cases var with
      | none => rfl
      | some p =>
        simp only [blocked, hv p rfl, Bool.not_true, Bool.and_false, Bool.false_or]
        exact ih (ps := []) fun i v p _ hp => by simp at hp
    | cons p ps =>
      simp only [blocked]
      rw [ih (ps := ps) fun i v q hi hq => h (i + 1) v q hi hq]
      rcases h 0 v p rfl rfl with h | h <;> rw [h] <;> simp

/-- With arguments that are ready, a function that deals with marks on its own is called. -/
theorem ready_blocked {x : Ext} {conv : MConv} {f : MFn} {args : List MV} (hf : f.own = true) (h : Ready f args) :
    blocked (f.spec x conv).params (f.spec x conv).var (strips args) = false := by
  apply blocked_free
  · intro p hp
    cases f with
    | fn f => cases f <;> cases hp <;> rfl
    | _ => cases hp
  · intro i v p hi hp
    obtain ⟨w, hw, rfl⟩ := strips_get hi
    have hr := h i w hw
    cases f with
    | fn f =>
      cases f <;> first
        | (cases hf; done)
        | (match i, hp with
           | 0, hp => cases hp; exact .inr rfl)
        | (match i, hp with
           | 0, _ => exact .inl hr)
        | (match i, hp with
           | 0, _ => exact .inl (hr (by decide))
           | 1, _ => exact .inl (hr (by decide)))
    | _ =>
      match i, hp with
      | 0, hp => cases hp; exact .inr rfl

/-- What a function that deals with marks on its own gives. -/
theorem own_ok {x : Ext} {conv : MConv} {f : MFn} {args : List MV} (hf : f.own = true) (hr : Ready f args) {r : MV}
    (h : mcall (f.spec x conv) args = .ok r) :
    ∃ T, (f.spec x conv).type args = some T ∧ (f.spec x conv).impl args T = some r := by
  have hm : (f.spec x conv).marked = true := by rw [spec_marked, hf]
  have hsee : seen (f.spec x conv) args = args := by simp only [seen, hm, if_true]
  have hres : resultMarks (f.spec x conv) args = [] := by simp only [resultMarks, hm, if_true]
  rcases mcall_ok h with ⟨hd, _⟩ | ⟨T, _, ht, ⟨hb, _⟩ | ⟨_, r0, hi, rfl⟩⟩
  · exact absurd hd (ready_check hr)
  · rw [ready_blocked hf hr] at hb; cases hb
  · rw [hsee] at ht hi
    rw [hres, withMarks_nil]
    exact ⟨T, ht, hi⟩

theorem to_same {x : Ext} {conv : MConv} (hc : conv.Ok x) {a : Mark} {args args' : List MV} (hs : SameAll a args args') {w t t' : Ty} {r r' : MV}
    (ht : mtoType x w args = some t) (ht' : mtoType x w args' = some t') (h : mtoImpl conv args t = some r) (h' : mtoImpl conv args' t' = some r') :
    Same a r r' := by
  match args, args', hs with
  | [], _, _ => cases h
  | _ :: _ :: _, _, _ => cases h
  | [_], [], hs => cases hs.1
  | [_], _ :: _ :: _, hs => cases hs.1
  | [v], [v'], hs =>
    have e1 : w = t := by
      simp only [mtoType] at ht
      split at ht <;> cases ht
      rfl
    have e2 : w = t' := by
      simp only [mtoType] at ht'
      split at ht' <;> cases ht'
      rfl
    subst e1; subst e2
    exact hc.same a v v' _ r r' hs.head.1 hs.head.2 h h'

theorem call_same {x : Ext} {conv : MConv} (hc : conv.Ok x) (f : MFn) (a : Mark) (hf : f = .sensitive → a = sensitiveMark)
    (hf' : f = .nonsensitive → a ≠ sensitiveMark) {args args' : List MV} (hs : SameAll a args args') (hr : Ready f args) (hr' : Ready f args')
    {r r' : MV} (h : mcall (f.spec x conv) args = .ok r) (h' : mcall (f.spec x conv) args' = .ok r') : Same a r r' := by
  cases ho : f.own with
  | false => exact plain_hides (by rw [spec_marked, ho]) hs (ready_check hr) (ready_check hr') h h'
  | true =>
    obtain ⟨T, ht, hi⟩ := own_ok ho hr h
    obtain ⟨T', ht', hi'⟩ := own_ok ho hr' h'
    cases f with
    | fn f =>
      cases f <;> first
        | (cases ho; done)
        | exact lookup_same hc hs (fun i v hv hl => hr i v hv hl) (fun i v hv hl => hr' i v hv hl) ht ht' hi hi'
        | exact to_same hc hs ht ht' hi hi'
        | (match args, args', hs, hi, hi' with
           | [], _, _, hi, _ => cases hi
           | _ :: _ :: _, _, _, hi, _ => cases hi
           | [_], [], hs, _, _ => cases hs.1
           | [_], _ :: _ :: _, hs, _, _ => cases hs.1
           | [v], [v'], hs, hi, hi' => exact length_same (x := x) (t := T) (t' := T') hs.head.1 hi hi')
    | sensitive =>
      match args, args', hs, hi, hi' with
      | [], _, _, hi, _ => cases hi
      | _ :: _ :: _, _, _, hi, _ => cases hi
      | [_], [], hs, _, _ => cases hs.1
      | [_], _ :: _ :: _, hs, _, _ => cases hs.1
      | [v], [v'], hs, hi, hi' =>
        cases hi; cases hi'
        exact withMarks_hidden (by rw [hf rfl]; exact List.mem_singleton.2 rfl) (by rw [hf rfl]; exact List.mem_singleton.2 rfl)
    | nonsensitive =>
      match args, args', hs, hi, hi' with
      | [], _, _, hi, _ => cases hi
      | _ :: _ :: _, _, _, hi, _ => cases hi
      | [_], [], hs, _, _ => cases hs.1
      | [_], _ :: _ :: _, hs, _, _ => cases hs.1
      | [v], [v'], hs, hi, hi' =>
        cases hi; cases hi'
        have hne := hf' rfl
        by_cases hv : a ∈ v.marks
        · have hv' : a ∈ v'.marks := Classical.byContradiction fun hn => hn (hs.head.1.symm.marks hn ▸ hv)
          exact withMarks_hidden (List.mem_filter.2 ⟨hv, by simpa using hne⟩) (List.mem_filter.2 ⟨hv', by simpa using hne⟩)
        · rw [hs.head.1.marks hv]
          exact (hs.head.1.unmark hv []).withMarks _

/-! ## Where marks come from -/

theorem carries_leaf {a : Mark} {ms : List Mark} {v : V} (h : Carries a (.leaf ms v)) : a ∈ ms := by cases h; assumption

theorem carries_unmark {a : Mark} {v : MV} {ms : List Mark} (h : Carries a (v.setMarks ms)) : Carries a v ∨ a ∈ ms := by
  cases v <;> cases h <;> first
    | (rename_i h; exact .inr h)
    | (rename_i h h'; exact .inl (.list h' h))
    | (rename_i h h'; exact .inl (.map h' h))
    | (rename_i h h'; exact .inl (.tup h' h))
    | (rename_i h h'; exact .inl (.obj h' h))

theorem length_old {x : Ext} {v r : MV} {t : Ty} (h : mlengthImpl x [v] t = some r) {a : Mark} (ha : Carries a r) : Carries a v := by
  have hd : ∀ u, Carries a (.leaf v.deep u) → Carries a v := fun u h => (deep_iff a v).1 (carries_leaf h)
  have hm : ∀ u, Carries a (.leaf v.marks u) → Carries a v := fun u h => .here (carries_leaf h)
  have hw : ∀ u, Carries a ((MV.leaf [] u).withMarks v.marks) → Carries a v := fun u h => hm u h
  simp only [mlengthImpl] at h
  split at h
  · cases h; exact hw _ ha
  · cases h; exact hw _ ha
  · cases h; exact hw _ ha
  · cases h; unfold mstrlen at ha; split at ha <;> exact hd _ ha
  all_goals first
    | (cases h; unfold mlength at ha; split at ha
       · exact hm _ ha
       · exact hm _ ha
       · split at ha <;> exact hm _ ha
       · exact hm _ ha)
    | cases h

theorem lookup_old {x : Ext} {conv : MConv} (hc : conv.Ok x) {args : List MV} {t : Ty} {r : MV} (h : mlookupImpl conv args t = some r) {a : Mark}
    (ha : Carries a r) : ∃ v ∈ args, Carries a v := by
  match args with
  | [] => cases h
  | [_] => cases h
  | m :: k :: rest =>
    have own : a ∈ m.marks ++ k.marks → ∃ v ∈ m :: k :: rest, Carries a v := fun h => by
      rcases List.mem_append.1 h with h | h
      · exact ⟨m, by simp, .here h⟩
      · exact ⟨k, by simp, .here h⟩
    obtain ⟨s, _, ⟨_, rfl⟩ | ⟨_, v, hv, rfl⟩ | ⟨_, _, d, d', rfl, hd, rfl⟩⟩ := lookup_cases h
    · rcases carries_withMarks ha with h | h
      · cases carries_leaf h
      · exact own h
    · rcases carries_withMarks ha with h | h
      · exact ⟨m, by simp, get_carries hv h⟩
      · exact own h
    · rcases carries_withMarks ha with h | h
      · exact ⟨d, by simp, hc.old a d t d' hd h⟩
      · exact own h

theorem call_old {x : Ext} {conv : MConv} (hc : conv.Ok x) (f : MFn) (a : Mark) {args : List MV} {r : MV} (h : mcall (f.spec x conv) args = .ok r)
    (ha : Carries a r) : (∃ v ∈ args, Carries a v) ∨ adds f a := by
  have hres : a ∈ resultMarks (f.spec x conv) args → ∃ v ∈ args, Carries a v := by
    intro h
    unfold resultMarks at h
    split at h
    · cases h
    · obtain ⟨v, hv, h⟩ := List.mem_flatMap.1 h
      exact ⟨v, hv, (deep_iff a v).1 h⟩
  rcases mcall_ok h with ⟨_, rfl⟩ | ⟨T, _, _, ⟨_, rfl⟩ | ⟨_, r0, hi, rfl⟩⟩
  · cases carries_leaf ha
  · exact .inl (hres (carries_leaf ha))
  · rcases (carries_withMarks ha).symm with hb | hb
    · exact .inl (hres hb)
    clear ha h
    have pl : ∀ o : Option V, o.map (MV.leaf []) = some r0 → False := by
      intro o ho
      cases o with
      | none => cases ho
      | some v => cases ho; cases carries_leaf hb
    cases f with
    | fn f =>
      cases f with
      | length =>
        match args, hi with
        | [v], hi => exact .inl ⟨v, by simp, length_old (x := x) (t := T) hi hb⟩
        | [], hi => cases hi
        | _ :: _ :: _, hi => cases hi
      | lookup => exact .inl (lookup_old hc hi hb)
      | to w =>
        match args, hi with
        | [v], hi => exact .inl ⟨v, by simp, hc.old a v T r0 hi hb⟩
        | [], hi => cases hi
        | _ :: _ :: _, hi => cases hi
      | typ =>
        match args, hi with
        | [v], hi => cases hi; exact .inr (List.mem_singleton.1 (carries_leaf hb))
        | [], hi => cases hi
        | _ :: _ :: _, hi => cases hi
      | list => cases hi
      | map => cases hi
      | _ => exact (pl _ hi).elim
    | sensitive =>
      match args, hi with
      | [], hi => cases hi
      | _ :: _ :: _, hi => cases hi
      | [v], hi =>
        cases hi
        rcases carries_withMarks hb with hb | hb
        · rcases carries_unmark hb with hb | hb
          · exact .inl ⟨v, by simp, hb⟩
          · cases hb
        · exact .inr (List.mem_singleton.1 hb)
    | nonsensitive =>
      match args, hi with
      | [], hi => cases hi
      | _ :: _ :: _, hi => cases hi
      | [v], hi =>
        cases hi
        refine .inl ⟨v, by simp, ?_⟩
        rcases carries_withMarks hb with hb | hb
        · rcases carries_unmark hb with hb | hb
          · exact hb
          · cases hb
        · exact .here (List.mem_filter.1 hb).1

/-- Functions that do not deal with marks on their own: the result has all marks. -/
theorem plain_kept {x : Ext} {conv : MConv} (f : MFn) (hf : f.own = false) {a : Mark} {args : List MV} (hr : Ready f args)
    (hc : ∃ v ∈ args, Carries a v) {r : MV} (h : mcall (f.spec x conv) args = .ok r) : a ∈ r.marks := by
  have hm := mem_resultMarks (by rw [spec_marked (x := x) (conv := conv), hf]) hc
  rcases mcall_ok h with ⟨hd, _⟩ | ⟨T, _, _, ⟨_, rfl⟩ | ⟨_, r0, _, rfl⟩⟩
  · exact absurd hd (ready_check hr)
  · exact hm
  · exact marks_resultMarks hm

theorem call_kept {x : Ext} {conv : MConv} (hc : conv.Ok x) (f : Fn) {a : Mark} {args : List MV} (hr : Ready (.fn f) args) {i : Nat} {v : MV}
    (hv : args[i]? = some v) (hl : f = .lookup → i < 2) (ha : a ∈ v.marks) {r : MV} (h : mcall ((MFn.fn f).spec x conv) args = .ok r) :
    a ∈ r.marks := by
  cases ho : (MFn.fn f).own with
  | false => exact plain_kept (.fn f) ho hr ⟨v, List.mem_of_getElem? hv, .here ha⟩ h
  | true =>
    obtain ⟨T, _, hi⟩ := own_ok ho hr h
    cases f with
    | length =>
      match args, hi, i, hv with
      | [], hi, _, _ => cases hi
      | _ :: _ :: _, hi, _, _ => cases hi
      | [w], hi, 0, hv => cases hv; exact length_marks (x := x) (t := T) hi ha
    | lookup =>
      match args, hi, i, hv, hl rfl with
      | [], hi, _, _, _ => cases hi
      | [_], hi, _, _, _ => cases hi
      | m :: k :: rest, hi, 0, hv, _ => cases hv; exact lookup_marks hi (List.mem_append_left _ ha)
      | m :: k :: rest, hi, 1, hv, _ => cases hv; exact lookup_marks hi (List.mem_append_right _ ha)
    | to w =>
      match args, hi, i, hv with
      | [], hi, _, _ => cases hi
      | _ :: _ :: _, hi, _, _ => cases hi
      | [u], hi, 0, hv => cases hv; exact hc.kept a _ T r hi ha
    | _ => cases ho

end Verif.Typed
