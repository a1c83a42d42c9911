import Verif.Lemmas.TypedStable
/-!
# Lemmas about errors that are final
-/
namespace Verif.Typed
open Funcs (K Res BF)

/-! ## Arguments -/

/-- Types of parameters for which an argument of a wrong type stays wrong. -/
inductive Plain : Ty → Prop
  | dyn : Plain .dyn
  | str : Plain .str
  | list : Plain (.list .dyn)

theorem Becomes.null_iff {v v' : V} (h : Becomes v v') (hn : v.isNull = true) : v'.isNull = true := by
  cases h <;> first | rfl | (cases hn; done)

theorem checkArg_err {p : Param} {v v' : V} (h : Becomes v v') (hp : Plain p.ty ∨ v'.ty = v.ty) (hc : checkArg p v = .err) :
    checkArg p v' = .err := by
  unfold checkArg at hc ⊢
  split
  · rfl
  next hn' =>
  split at hc
  · next hn =>
    simp only [Bool.and_eq_true] at hn hn'
    exact absurd ⟨h.null_iff hn.1, hn.2⟩ hn'
  next hn =>
  split at hc
  · split at hc <;> cases hc
  next hd =>
  split at hc
  · cases hc
  next hf =>
  have hf : ¬ Fits v.ty p.ty := fun h => hf ((cmp_iff _ _).2 h)
  split
  · next hd' => exact absurd (fits_dyn (hd' ▸ h.ty)) hd
  · next hd' =>
    rw [if_neg]
    intro hf'
    have hf' := (cmp_iff _ _).1 hf'
    rcases hp with hp | hp
    · have hty := h.ty
      generalize v.ty = t at *
      generalize v'.ty = t' at *
      generalize p.ty = w at *
      cases hp with
      | dyn => exact hf (.any _)
      | str =>
        cases hf'
        cases hty with
        | any => exact hd rfl
        | str => exact hf .str
      | list =>
        cases hf'
        cases hty with
        | any => exact hd rfl
        | list => exact hf (.list (.any _))
    · exact hf (hp ▸ hf')

theorem checkArgs_err (args : List V) : ∀ {args' : List V} {ps : List Param} {var : Option Param}, BecomesAll args args' →
    ((∀ p ∈ ps, Plain p.ty) ∧ (∀ p, var = some p → Plain p.ty)) ∨ args'.map V.ty = args.map V.ty →
    checkArgs ps var args = .err → checkArgs ps var args' = .err := by
  induction args with
  | nil => intro args' ps var _ _ hc; simp [checkArgs] at hc
  | cons v l ih =>
    intro args' ps var h hp hc
    obtain ⟨v', t, rfl, hv, ht⟩ := h.cons
    have step : ∀ (p : Param) (ps' : List Param), (Plain p.ty ∨ v'.ty = v.ty) →
        (((∀ p ∈ ps', Plain p.ty) ∧ (∀ p, var = some p → Plain p.ty)) ∨ t.map V.ty = l.map V.ty) →
        (match checkArg p v with | .ok => checkArgs ps' var l | c => c) = .err →
        (match checkArg p v' with | .ok => checkArgs ps' var t | c => c) = .err := by
      intro p ps' h1 h2 h3
      cases hcv : checkArg p v with
      | err => rw [checkArg_err hv h1 hcv]
      | dyn => rw [hcv] at h3; cases h3
      | ok =>
        rw [hcv] at h3
        cases hcv' : checkArg p v' with
        | err => rfl
        | dyn => exact absurd hcv' (checkArg_dyn hv hcv)
        | ok => exact ih ht h2 h3
    have hsame : (v' :: t).map V.ty = (v :: l).map V.ty → v'.ty = v.ty ∧ t.map V.ty = l.map V.ty := by
      intro h; simp only [List.map_cons, List.cons.injEq] at h; exact h
    cases ps with
    | cons p ps =>
      simp only [checkArgs] at hc ⊢
      rcases hp with hp | hp
      · exact step p ps (.inl (hp.1 p List.mem_cons_self)) (.inl ⟨fun q hq => hp.1 q (List.mem_cons_of_mem _ hq), hp.2⟩) hc
      · exact step p ps (.inr (hsame hp).1) (.inr (hsame hp).2) hc
    | nil =>
      cases var with
      | none => simp [checkArgs] at hc
      | some p =>
        simp only [checkArgs] at hc ⊢
        rcases hp with hp | hp
        · exact step p [] (.inl (hp.2 p rfl)) (.inl ⟨fun q hq => (by cases hq), hp.2⟩) hc
        · exact step p [] (.inr (hsame hp).1) (.inr (hsame hp).2) hc

/-- The first argument of a call that is checked, if its parameter takes no values of unknown type or null. -/
theorem first_ok {p : Param} {ps : List Param} {var : Option Param} {v : V} {l : List V} (hd : p.allowDyn = false)
    (hc : checkArgs (p :: ps) var (v :: l) = .ok) : v.ty ≠ .dyn ∧ (p.allowNull = false → v.isNull = false) ∧ Fits v.ty p.ty := by
  simp only [checkArgs] at hc
  have hp : checkArg p v = .ok := by
    split at hc
    · assumption
    · exact hc
  unfold checkArg at hp
  split at hp
  · cases hp
  next hn =>
  split at hp
  · rw [hd] at hp; cases hp
  next hne =>
  split at hp
  · next hf =>
    refine ⟨fun h => hne h, fun ha => ?_, (cmp_iff _ _).1 hf⟩
    simpa [ha] using hn
  · cases hp

/-! ## Types -/

theorem fits_get {as as' : List (Bytes × Ty)} (names : as'.map (·.1) = as.map (·.1)) {k : Bytes} (h : GoMap.get? as k = none) :
    GoMap.get? as' k = none := by
  rcases get_names as' as names k with ⟨h1, _⟩ | ⟨_, _, _, _, _, _, h4⟩
  · exact h1
  · rw [h] at h4; cases h4

theorem BecomesAll.types {l l' : List V} (h : BecomesAll l l') : (l.map V.ty).length = (l'.map V.ty).length ∧
    ∀ (i : Nat) (t t' : Ty), (l.map V.ty)[i]? = some t → (l'.map V.ty)[i]? = some t' → Fits t' t := by
  refine ⟨by simp [h.1], fun i t t' ht ht' => ?_⟩
  rw [List.getElem?_map, Option.map_eq_some_iff] at ht ht'
  obtain ⟨v, hv, rfl⟩ := ht
  obtain ⟨v', hv', rfl⟩ := ht'
  exact (h.2 i v v' hv hv').ty

theorem type_final {x : Ext} (hx : x.Final) (f : Fn) {args args' : List V} (h : BecomesAll args args')
    (hg : ∀ a ∈ args, Good a) (hg' : ∀ a ∈ args', Good a) (hse : Settled f args args')
    (hc : checkArgs (f.spec x).params (f.spec x).var args = .ok) (ht : (f.spec x).type args = none) :
    (f.spec x).type args' = none := by
  cases f with
  | allTrue | anyTrue | index | sum | transpose | typ => cases ht
  | list | map => rfl
  | coalesce => exact hx.unify _ _ h.types.1 h.types.2 ht
  | length =>
    simp only [Fn.spec] at ht ⊢
    cases args with
    | nil => rw [h.nil]; rfl
    | cons v l =>
    obtain ⟨v', t, rfl, hv, h⟩ := h.cons
    cases l with
    | cons a l => obtain ⟨_, _, rfl, _, _⟩ := h.cons; rfl
    | nil =>
    obtain rfl := h.nil
    have hty := hv.ty
    simp only [lengthType] at ht ⊢
    generalize v.ty = t at *
    generalize v'.ty = t' at *
    cases hty <;> first | rfl | (cases ht; done)
  | one =>
    simp only [Fn.spec] at ht ⊢ hc
    cases args with
    | nil => rw [h.nil]; rfl
    | cons v l =>
    have hd := (first_ok rfl hc).1
    obtain ⟨v', t, rfl, hv, h⟩ := h.cons
    cases l with
    | cons a l => obtain ⟨_, _, rfl, _, _⟩ := h.cons; rfl
    | nil =>
    obtain rfl := h.nil
    have hty := hv.ty
    simp only [oneType] at ht ⊢
    generalize v.ty = t at *
    generalize v'.ty = t' at *
    cases hty with
    | any => exact absurd rfl hd
    | list => cases ht
    | set => cases ht
    | tup len each =>
      rename_i gs ws
      match gs, ws, len, ht with
      | _, [], _, ht => cases ht
      | _, [_], _, ht => cases ht
      | _ :: _ :: _, _ :: _ :: _, _, _ => rfl
    | _ => rfl
  | matchkeys =>
    simp only [Fn.spec, matchkeysType] at ht ⊢
    split at ht
    · next v k s =>
      obtain ⟨v', t, rfl, hv, h⟩ := h.cons
      have h2 := h.types
      obtain ⟨k', t, rfl, hk, h⟩ := h.cons
      obtain ⟨s', t, rfl, hs, h⟩ := h.cons
      obtain rfl := h.nil
      have hu : x.unify [k.ty, s.ty] = none := by
        cases hu : x.unify [k.ty, s.ty] with
        | none => rfl
        | some => rw [hu] at ht; cases ht
      dsimp only
      rw [hx.unify [k.ty, s.ty] [k'.ty, s'.ty] rfl h2.2 hu]
      rfl
    · next hne =>
      split
      · next v k s =>
        exfalso
        match args, h.1, hne with
        | [a, c, d], _, hne => exact hne a c d rfl
      · rfl
  | to w =>
    simp only [Fn.spec, toType] at ht ⊢
    cases args with
    | nil => rw [h.nil]
    | cons v l =>
    obtain ⟨v', t, rfl, hv, h⟩ := h.cons
    cases l with
    | cons a l => obtain ⟨_, _, rfl, _, _⟩ := h.cons; rfl
    | nil =>
    obtain rfl := h.nil
    dsimp only at ht ⊢
    split at ht
    · cases ht
    next hn =>
    rw [if_neg]
    intro hy
    apply hn
    rw [Bool.or_eq_true, cmp_eq] at hy ⊢
    exact hx.can v.ty v'.ty w hv.ty hy
  | lookup =>
    simp only [Fn.spec] at ht ⊢ hc
    cases args with
    | nil => rw [h.nil]; rfl
    | cons m l =>
    have hd := (first_ok rfl hc).1
    have hs1 : ∀ m', args'[0]? = some m' → (∃ e, m.ty = .map e) → m'.ty = m.ty := fun m' h' he => hse m m' rfl h' he
    obtain ⟨m', t, rfl, hm, h⟩ := h.cons
    cases l with
    | nil => rw [h.nil]; rfl
    | cons k rest =>
    obtain ⟨k', rest', rfl, hk, hr⟩ := h.cons
    have hlen := hr.1
    simp only [lookupType, ← hlen] at ht ⊢
    split
    · next hle =>
      rw [if_pos hle] at ht
      have hmt := hm.ty
      have hse2 := hs1 m' rfl
      clear hs1 hse
      generalize m.ty = tm at *
      generalize m'.ty = tm' at *
      cases hmt with
      | any => exact absurd rfl hd
      | obj names each =>
        dsimp only at ht ⊢
        cases hk with
        | unk => cases ht
        | str s =>
          dsimp only at ht ⊢
          split at ht
          · cases ht
          next hg0 =>
          rw [fits_get names hg0]
          dsimp only
          split at ht
          · cases ht
          next hne =>
          split
          · next d' =>
            exfalso
            match rest, hlen, hne with
            | [d], _, hne => exact hne d rfl
          · rfl
        | _ => rfl
      | map he =>
        have := hse2 ⟨_, rfl⟩
        cases this
        dsimp only at ht ⊢
        cases rest with
        | nil => cases ht
        | cons d r =>
        cases r with
        | cons => simp at hle
        | nil =>
          obtain ⟨d', t2, rfl, hdd, h⟩ := hr.cons
          obtain rfl := h.nil
          simp only [Option.map_eq_none_iff] at ht ⊢
          exact hx.conv d d' _ (hg d (by simp)) (hg' d' (by simp)) hdd ht
      | _ => rfl
    · rfl

/-! ## Values -/

theorem eqK_err {x : Ext} (hx : x.Final) {a a' c c' : V} (ha : Becomes a a') (hc : Becomes c c')
    (h : eqK x a c = .error () ∨ eqK x a c = .ok .null) : eqK x a' c' = .error () := by
  have : x.equal a c = none := by
    cases he : x.equal a c with
    | none => rfl
    | some r =>
      rcases hx.bool a c r he with ⟨y, rfl⟩ | ⟨t, rfl⟩ <;> simp [eqK, he] at h
  unfold eqK
  rw [hx.equal a a' c c' ha hc this]

theorem indexLoop_err {x : Ext} (hx : x.Final) (hs : x.Stable) {w w' : V} (hw : Becomes w w') (l : List V) : ∀ {l' : List V} {i : Nat},
    BecomesAll l l' → Funcs.indexLoop (eqK x) w i l = .error () → Funcs.indexLoop (eqK x) w' i l' = .error () := by
  induction l with
  | nil => intro l' i h _; rw [h.nil]; rfl
  | cons a l ih =>
    intro l' i h hl
    obtain ⟨a', t, rfl, ha, h⟩ := h.cons
    simp only [Funcs.indexLoop] at hl ⊢
    cases he : eqK x a w with
    | error => rw [eqK_err hx ha hw (.inl he)]
    | ok k =>
      rw [he] at hl
      cases k with
      | unk => cases hl
      | null => rw [eqK_err hx ha hw (.inr he)]
      | val r =>
        rw [eqK_stable hs ha hw he]
        cases r with
        | true => cases hl
        | false => exact ih h hl

theorem coalesce_none {x : Ext} {T : Ty} (args : List V) : coalesceImpl x args T = none ↔
    ∀ a ∈ args, ∀ r, x.conv a T = some r → r.isNull = true ∨ isEmpty T r = true := by
  induction args with
  | nil => exact ⟨fun _ a h => (by cases h), fun _ => rfl⟩
  | cons a l ih =>
    have skip : (∀ r, x.conv a T = some r → r.isNull = true ∨ isEmpty T r = true) →
        coalesceImpl x (a :: l) T = coalesceImpl x l T := by
      intro h
      simp only [coalesceImpl, List.map_cons]
      cases hr : x.conv a T with
      | none => simp only [converted, hr, Funcs.coalesce]
      | some r =>
        rcases h r hr with h | h
        · cases r <;> first | (cases h; done) | simp only [converted, hr, Funcs.coalesce]
        · cases r with
          | str s => simp only [converted, hr, Funcs.coalesce, h, if_true]
          | _ => cases T <;> cases h
    constructor
    · intro hi
      have hsk : ∀ r, x.conv a T = some r → r.isNull = true ∨ isEmpty T r = true := by
        intro r hr
        by_cases he : isEmpty T r = true
        · exact .inr he
        · refine .inl ?_
          simp only [coalesceImpl, List.map_cons, converted, hr] at hi
          cases r <;> first | rfl | (simp only [Funcs.coalesce] at hi; first | (cases hi; done) | (rw [if_neg he] at hi; cases hi))
      rw [skip hsk] at hi
      intro c hc
      rcases List.mem_cons.1 hc with rfl | hc
      · exact hsk
      · exact ih.1 hi c hc
    · intro h
      rw [skip (h a List.mem_cons_self)]
      exact ih.2 fun c hc => h c (List.mem_cons_of_mem _ hc)

theorem coalesce_err {x : Ext} (hx : x.Final) (hs : x.Stable) {T : Ty} {args args' : List V} (h : BecomesAll args args')
    (hg : ∀ a ∈ args, Good a) (hg' : ∀ a ∈ args', Good a) (hi : coalesceImpl x args T = none) : coalesceImpl x args' T = none := by
  rw [coalesce_none] at hi ⊢
  intro a' ha' r' hr'
  obtain ⟨i, hi'⟩ := List.mem_iff_getElem?.1 ha'
  obtain ⟨a, hia⟩ := len_get h.1.symm hi'
  have hm := List.mem_iff_getElem?.2 ⟨i, hia⟩
  have hb := h.2 i a a' hia hi'
  cases hr : x.conv a T with
  | none => rw [hx.conv a a' T (hg a hm) (hg' a' ha') hb hr] at hr'; cases hr'
  | some r =>
    have hb := hs.conv a a' T r r' (hg a hm) (hg' a' ha') hb hr hr'
    rcases hi a hm r hr with hn | he
    · exact .inl (hb.null_iff hn)
    · refine .inr ?_
      rw [isEmpty_stable hb]
      · exact he
      · cases r <;> first | rfl | (cases T <;> cases he)

theorem impl_final {x : Ext} (hok : x.Ok) (hx : x.Final) (hs : x.Stable) (f : Fn) {args args' : List V} (h : BecomesAll args args')
    (hg : ∀ a ∈ args, Good a) (hg' : ∀ a ∈ args', Good a) {T T' : Ty} (hse : Settled f args args')
    (hb : blocked (f.spec x).params (f.spec x).var args = false)
    (ht : (f.spec x).type args = some T) (ht' : (f.spec x).type args' = some T')
    (hi : (f.spec x).impl args T = none) : (f.spec x).impl args' T' = none := by
  cases f with
  | coalesce =>
    have hTT : T' = T := by
      have hse : args'.map V.ty = args.map V.ty := hse
      simp only [Fn.spec, coalesceType] at ht ht'
      rw [hse, ht] at ht'
      cases ht'; rfl
    subst hTT
    exact coalesce_err hx hs h hg hg' hi
  | list | map => rfl
  | length =>
    simp only [Fn.spec] at ht hi
    unfold lengthType at ht
    split at ht
    · simp only [lengthImpl] at hi
      split at ht <;> rename_i hty <;> simp only [hty] at hi <;> first | (cases hi; done) | (cases ht; done) | (split at hi <;> first | (cases hi; done) | (split at hi <;> cases hi))
    · cases ht
  | allTrue =>
    cases ht; cases ht'
    simp only [Fn.spec] at hi hb ⊢
    cases hi' : allTrueImpl args' .bool with
    | none => rfl
    | some v' =>
    exfalso
    unfold allTrueImpl at hi'
    split at hi'
    · match args, h with
      | [a], h =>
        obtain ⟨_, _, h0, ha, h⟩ := h.cons
        cases h0
        cases ha with
        | unk => simp [blocked, V.known] at hb
        | list ty sm len each =>
          simp only [allTrueImpl, ofRes] at hi
          split at hi
          · next hr => cases hr
          · cases hi
          · cases hi
          · cases hi
    · cases hi'
  | anyTrue =>
    cases ht; cases ht'
    simp only [Fn.spec] at hi hb ⊢
    cases hi' : anyTrueImpl args' .bool with
    | none => rfl
    | some v' =>
    exfalso
    unfold anyTrueImpl at hi'
    split at hi'
    · match args, h with
      | [a], h =>
        obtain ⟨_, _, h0, ha, h⟩ := h.cons
        cases h0
        cases ha with
        | unk => simp [blocked, V.known] at hb
        | list ty sm len each =>
          simp only [anyTrueImpl, ofRes] at hi
          split at hi
          · next hr => cases hr
          · cases hi
          · cases hi
          · cases hi
    · cases hi'
  | transpose =>
    cases ht; cases ht'
    simp only [Fn.spec] at hi hb ⊢
    cases hi' : transposeImpl args' (.map (.list .str)) with
    | none => rfl
    | some v' =>
    exfalso
    have hi0 := hi'
    unfold transposeImpl at hi0
    split at hi0
    · match args, h with
      | [a], h =>
        obtain ⟨_, _, h0, ha, h⟩ := h.cons
        cases h0
        cases hk : ha with
        | unk => simp [blocked, V.known] at hb
        | map ty sm names each =>
          rename_i m
          by_cases hw : wholeO m = true
          · have := ha.eq fun h => by cases h with | map hm ho => exact (wholeO_iff m).1 hw _ hm ho
            rw [this, hi] at hi'
            cases hi'
          · simp [transposeImpl, hw] at hi
    · cases hi0
  | index =>
    cases ht; cases ht'
    simp only [Fn.spec] at hi hb ⊢
    have key : ∀ {l l' : List V} {w w' : V}, Becomes w w' → BecomesAll l l' →
        (if l.length = 0 then none else ofRes .num int (Funcs.indexLoop (eqK x) w 0 l)) = none →
        (if l'.length = 0 then none else ofRes .num int (Funcs.indexLoop (eqK x) w' 0 l')) = none := by
      intro l l' w w' hw hl h1
      rw [← hl.1]
      split at h1
      · next h0 => rw [if_pos h0]
      · next h0 =>
        rw [if_neg h0]
        cases hr : Funcs.indexLoop (eqK x) w 0 l with
        | error u => rw [indexLoop_err hx hs hw l hl hr]; rfl
        | ok k => rw [hr] at h1; cases k <;> cases h1
    cases hi' : indexImpl x args' .num with
    | none => rfl
    | some v' =>
    exfalso
    unfold indexImpl at hi'
    split at hi'
    · next t e l w =>
      match args, h with
      | [a, c], h =>
        obtain ⟨_, _, h0, ha, h⟩ := h.cons
        cases h0
        obtain ⟨_, _, h0, hc, _⟩ := h.cons
        cases h0
        cases ha with
        | unk => simp [blocked, V.known] at hb
        | list ty sm len each => rw [key hc ⟨len, each⟩ hi] at hi'; cases hi'
    · next t l w =>
      match args, h with
      | [a, c], h =>
        obtain ⟨_, _, h0, ha, h⟩ := h.cons
        cases h0
        obtain ⟨_, _, h0, hc, _⟩ := h.cons
        cases h0
        cases ha with
        | unk => simp [blocked, V.known] at hb
        | tup len each => rw [key hc ⟨len, each⟩ hi] at hi'; cases hi'
    · cases hi'
  | lookup =>
    simp only [Fn.spec] at ht ht' hi hb ⊢
    cases hi' : lookupImpl x args' T' with
    | none => rfl
    | some v' =>
    exfalso
    unfold lookupImpl at hi'
    split at hi'
    · next t m' s rest' =>
      match args, h with
      | [], h => cases h.nil
      | [_], h => obtain ⟨_, _, h0, _, h⟩ := h.cons; cases h0; cases h.nil
      | a :: k :: rest, h =>
        obtain ⟨_, _, h0, ha, h⟩ := h.cons
        cases h0
        obtain ⟨_, _, h0, hk, hr⟩ := h.cons
        cases h0
        cases ha with
        | unk => simp [blocked, V.known] at hb
        | obj names each =>
        rename_i m
        cases hk with
        | unk => simp [blocked, V.known] at hb
        | str =>
        simp only [lookupImpl] at hi
        rcases get_names m m' names s with ⟨h1, h2⟩ | ⟨i, g, w, h1, h2, h3, h4⟩
        · rw [h1] at hi
          rw [h2] at hi'
          dsimp only at hi hi'
          unfold lookupDefault at hi'
          split at hi'
          · match rest, hr with
            | [d], hr =>
              simp only [lookupType, V.ty, get_tys, h1, Option.map_none] at ht
              cases ht
              dsimp only [lookupDefault] at hi
              rw [hok.self] at hi
              cases hi
          · cases hi'
        · rw [h3] at hi
          cases hi
    · next t e' m' s rest' =>
      match args, h with
      | [], h => cases h.nil
      | [_], h => obtain ⟨_, _, h0, _, h⟩ := h.cons; cases h0; cases h.nil
      | a :: k :: rest, h =>
        obtain ⟨_, _, h0, ha, h⟩ := h.cons
        cases h0
        obtain ⟨_, _, h0, hk, hr⟩ := h.cons
        cases h0
        cases ha with
        | unk => simp [blocked, V.known] at hb
        | map ty sm names each =>
        rename_i e m
        have hse := hse _ _ rfl rfl ⟨e, rfl⟩
        cases hse
        cases hk with
        | unk => simp [blocked, V.known] at hb
        | str =>
        simp only [lookupImpl] at hi
        obtain rfl := lookup_map_type ht
        obtain rfl := lookup_map_type ht'
        rcases get_names m m' names s with ⟨h1, h2⟩ | ⟨i, g, w, h1, h2, h3, h4⟩
        · rw [h1] at hi
          rw [h2] at hi'
          dsimp only at hi hi'
          unfold lookupDefault at hi'
          split at hi'
          · match rest, hr with
            | [d], hr =>
              obtain ⟨_, _, h0, hd, _⟩ := hr.cons
              cases h0
              rw [hx.conv d _ _ (hg d (by simp)) (hg' _ (by simp)) hd hi] at hi'
              cases hi'
          · cases hi'
        · rw [h3] at hi
          cases hi
    · cases hi'
  | matchkeys =>
    simp only [Fn.spec] at ht ht' hi hb ⊢
    cases hi' : matchkeysImpl x args' T' with
    | none => rfl
    | some v' =>
    exfalso
    obtain ⟨hty, hse⟩ := hse
    unfold matchkeysImpl at hi'
    split at hi'
    · next e0 values' ek keys' es search' e =>
      match args, h with
      | [a1, a2, a3], h =>
      have hse := hse _ rfl
      obtain ⟨_, _, h0, h1, h⟩ := h.cons
      cases h0
      obtain ⟨_, _, h0, h2, h⟩ := h.cons
      cases h0
      obtain ⟨_, _, h0, h3, h⟩ := h.cons
      cases h0
      obtain rfl := h3.eq hse
      cases hv : h1 with
      | unk => simp [blocked, V.known] at hb
      | list ty1 sm1 len1 each1 =>
      clear hv
      cases hk : h2 with
      | unk => simp [blocked, V.known] at hb
      | list ty2 sm2 len2 each2 =>
      rename_i ek1 keys _
      clear hk
      simp only [List.map_cons, V.ty, List.cons.injEq, Ty.list.injEq] at hty
      obtain ⟨rfl, rfl, _⟩ := hty
      have hT : T = .list e0 := by
        simp only [matchkeysType, V.ty] at ht
        obtain ⟨_, _, rfl⟩ := Option.map_eq_some_iff.1 ht
        rfl
      have hT' : e = e0 := by
        simp only [matchkeysType, V.ty] at ht'
        obtain ⟨_, _, h⟩ := Option.map_eq_some_iff.1 ht'
        cases h; rfl
      subst hT hT'
      simp only [matchkeysImpl] at hi
      rw [len1, len2] at hi
      split at hi'
      · cases hi'
      next hl =>
      rw [if_neg hl] at hi
      split at hi'
      · cases hi'
      next ty hu =>
      rw [hu] at hi
      dsimp only at hi
      split at hi'
      · cases hi'
      next sv hsv =>
      rw [hsv] at hi
      dsimp only at hi
      split at hi'
      · cases hi'
      next ss hss =>
      rw [hss] at hi
      dsimp only at hi
      split at hi'
      · next hz => rw [if_pos hz] at hi; cases hi
      next hz =>
      rw [if_neg hz] at hi
      split at hi
      · cases hi
      next hw =>
      simp only [Bool.not_eq_true', Bool.not_eq_false] at hw
      obtain ⟨h1v⟩ : V.list e values' = V.list e _ := Becomes.eq h1 (by
          intro ho
          cases ho with
          | list hm ho => exact (wholeL_iff _).1 hw _ hm ho)
      rw [hw, Bool.not_true, if_neg Bool.false_ne_true] at hi'
      split at hi'
      · cases hi'
      next kv' hkv' =>
      cases hkv : x.conv (.list ek keys) ty with
      | none =>
        rw [hx.conv _ _ ty (hg _ (by simp)) (hg' _ (by simp)) h2 hkv] at hkv'
        cases hkv'
      | some kv =>
        rw [hkv] at hi
        dsimp only at hi
        split at hi
        · cases hi
        next hkw =>
        have hkw : kv.whole = true := by simpa using hkw
        have hb := hs.conv _ _ ty kv kv' (hg _ (by simp)) (hg' _ (by simp)) h2 hkv hkv'
        obtain rfl := hb.eq ((whole_iff kv).1 hkw)
        rw [hkw, Bool.not_true, if_neg Bool.false_ne_true] at hi'
        split at hi
        · next he => rw [he] at hi'; cases hi'
        next ks hks =>
        rw [hks] at hi'
        dsimp only at hi'
        split at hi
        · next out hm =>
          rw [hm] at hi'
          exact absurd (hi.symm.trans hi') (by simp)
        · next hn =>
          split at hi'
          · next out hm => exact hn out hm
          · cases hi'
    · cases hi'
  | one =>
    simp only [Fn.spec] at ht ht' hi hb ⊢
    cases hi' : oneImpl args' T' with
    | none => rfl
    | some v' =>
    exfalso
    unfold oneImpl at hi'
    split at hi'
    · next t e l =>
      match args, h with
      | [a], h =>
        obtain ⟨_, _, h0, ha, h⟩ := h.cons
        cases h0
        cases ha with
        | unk => simp [blocked, V.known] at hb
        | list ty sm len each =>
          rename_i l0
          match l0, l, len, hi with
          | [], _, _, hi => cases hi
          | [_], _, _, hi => cases hi
          | _ :: _ :: _, _ :: _ :: _, _, _ => cases hi'
    · next t e l =>
      match args, h with
      | [a], h =>
        obtain ⟨_, _, h0, ha, h⟩ := h.cons
        cases h0
        cases ha with
        | unk => simp [blocked, V.known] at hb
        | set ty sm len each members fewer =>
          rename_i l0 _
          match l0, len, sm, hi with
          | [], _, _, hi => simp [oneImpl, wholeL] at hi
          | [_], _, _, hi => simp [oneImpl] at hi
          | a :: c :: l0, _, sm, hi =>
            by_cases hw : wholeL (a :: c :: l0) = true
            · obtain ⟨rfl, rfl⟩ := sm fun v h => (wholeL_iff _).1 hw v h
              simp [hw] at hi'
            · simp [oneImpl, hw] at hi
    · next t l =>
      match args, h with
      | [a], h =>
        obtain ⟨_, _, h0, ha, h⟩ := h.cons
        cases h0
        cases ha with
        | unk => simp [blocked, V.known] at hb
        | tup len each =>
          rename_i l0
          match l0, l, len, hi with
          | [], _, _, hi => cases hi
          | [_], _, _, hi => cases hi
          | _ :: _ :: _, _ :: _ :: _, _, _ => cases hi'
    · cases hi'
  | sum =>
    cases ht; cases ht'
    simp only [Fn.spec] at hi hb ⊢
    cases hi' : sumImpl x args' .num with
    | none => rfl
    | some v' =>
    exfalso
    have key : ∀ {a a' : V} {l l' : List V}, args = [a] → args' = [a'] → (Open a → ∃ v ∈ l, Open v) → Becomes a a' →
        (l = [] → l' = []) → sumList x l' = some v' → sumList x l = none → False := by
      rintro a a' l l' rfl rfl ho ha hem h1 h2
      by_cases hw : wholeL l = true
      · have := ha.eq fun h => by obtain ⟨v, hm, hv⟩ := ho h; exact (wholeL_iff l).1 hw v hm hv
        subst this
        rw [hi] at hi'; cases hi'
      · cases l with
        | nil => exact hw rfl
        | cons v l => simp [sumList, hw] at h2
    have hi0 := hi'
    unfold sumImpl at hi0
    split at hi0
    · next t e l =>
      match args, h with
      | [a], h =>
        obtain ⟨_, _, h0, ha, h⟩ := h.cons
        cases h0
        cases hk : ha with
        | unk => simp [blocked, V.known] at hb
        | list ty sm len each =>
          exact key rfl rfl (fun h => by cases h with | list hm ho => exact ⟨_, hm, ho⟩) ha
            (fun h => by subst h; exact List.length_eq_zero_iff.1 len.symm) hi0 hi
    · next t e l =>
      match args, h with
      | [a], h =>
        obtain ⟨_, _, h0, ha, h⟩ := h.cons
        cases h0
        cases hk : ha with
        | unk => simp [blocked, V.known] at hb
        | set ty sm len each members fewer =>
          exact key rfl rfl (fun h => by cases h with | set hm ho => exact ⟨_, hm, ho⟩) ha
            (fun h => by subst h; exact (sm fun v h => by cases h).2) hi0 hi
    · next t l =>
      match args, h with
      | [a], h =>
        obtain ⟨_, _, h0, ha, h⟩ := h.cons
        cases h0
        cases hk : ha with
        | unk => simp [blocked, V.known] at hb
        | tup len each =>
          exact key rfl rfl (fun h => by cases h with | tup hm ho => exact ⟨_, hm, ho⟩) ha
            (fun h => by subst h; exact List.length_eq_zero_iff.1 len.symm) hi0 hi
    · cases hi0
  | to w =>
    have key : ∀ {l : List V} {T : Ty}, toType x w l = some T → T = w := by
      intro l T h
      unfold toType at h
      split at h
      · split at h
        · cases h; rfl
        · cases h
      · cases h
    obtain rfl := key ht
    obtain rfl := key ht'
    simp only [Fn.spec, toImpl] at hi ⊢
    split
    · match args, h with
      | [a], h =>
        obtain ⟨_, _, h0, ha, h⟩ := h.cons
        cases h0
        exact hx.conv a _ _ (hg a List.mem_cons_self) (hg' _ List.mem_cons_self) ha hi
    · rfl
  | typ =>
    simp only [Fn.spec, typImpl] at hi ⊢
    split
    · match args, h with
      | [a], h => cases hi
    · rfl

theorem plain_params (x : Ext) (f : Fn) : f = .allTrue ∨ f = .anyTrue ∨ f = .transpose ∨
    ((∀ p ∈ (f.spec x).params, Plain p.ty) ∧ (∀ p, (f.spec x).var = some p → Plain p.ty)) := by
  cases f <;> first
    | exact .inl rfl
    | exact .inr (.inl rfl)
    | exact .inr (.inr (.inl rfl))
    | (refine .inr (.inr (.inr ⟨?_, ?_⟩))
       · intro p hp
         first
           | (cases hp; done)
           | simp only [Fn.spec, List.mem_cons, List.not_mem_nil, or_false] at hp
         first
           | done
           | (rcases hp with rfl | rfl | rfl <;> constructor)
           | (rcases hp with rfl | rfl <;> constructor)
           | (subst hp; constructor)
       · intro p hp
         first
           | (cases hp; done)
           | (cases hp; constructor))

theorem call_final {x : Ext} (hok : x.Ok) (hx : x.Final) (hs : x.Stable) (f : Fn) {args args' : List V} (h : BecomesAll args args')
    (hg : ∀ a ∈ args, Good a) (hg' : ∀ a ∈ args', Good a) (hse : Settled f args args')
    (hc : call (f.spec x) args = .err) : call (f.spec x) args' = .err := by
  rcases call_ok hok f hg' with he | ⟨v', T', d', h1, hr', _⟩
  · exact he
  exfalso
  obtain ⟨T1, d1, hr1, hcase⟩ := call_cases h1
  rw [hr'] at hr1
  cases hr1
  unfold call at hc
  split at hc
  · next hr =>
    unfold returnType at hr
    split at hr
    · next hl =>
      split at hr
      · next hk =>
        have := checkArgs_err args h (by
          rcases plain_params x f with rfl | rfl | rfl | hp
          · exact .inr hse
          · exact .inr hse
          · exact .inr hse
          · exact .inl hp) hk
        unfold returnType at hr'
        rw [this] at hr'
        split at hr' <;> cases hr'
      · cases hr
      · next hk =>
        have hn := type_final hx f h hg hg' hse hk (Option.map_eq_none_iff.1 hr)
        unfold returnType at hr'
        split at hr'
        · split at hr'
          · cases hr'
          · next hk' => exact checkArgs_dyn args h hk hk'
          · rw [hn] at hr'; cases hr'
        · cases hr'
    · next hl =>
      unfold returnType at hr'
      rw [← h.1, if_neg hl] at hr'
      cases hr'
  · cases hc
  · next T hr =>
    split at hc
    · cases hc
    next hb =>
    have hb : blocked (f.spec x).params (f.spec x).var args = false := Bool.eq_false_iff.2 hb
    split at hc
    · next hi =>
      obtain ⟨_, ⟨_, _, hd⟩ | ⟨hk, ht, _⟩⟩ := returnType_cases hr
      · cases hd
      obtain ⟨_, ⟨hk', _, _⟩ | ⟨_, ht', rfl⟩⟩ := returnType_cases hr'
      · exact checkArgs_dyn args h hk hk'
      have hn := impl_final hok hx hs f h hg hg' hse hb ht ht' hi
      rcases hcase with ⟨hd | hb', _⟩ | ⟨_, _, hi'⟩
      · cases hd
      · rw [blocked_stable args h hb] at hb'; cases hb'
      · rw [hn] at hi'; cases hi'
    · split at hc
      · split at hc <;> cases hc
      · cases hc

/-- A null argument that the function does not take. -/
theorem checkArgs_null {ps : List Param} {var : Option Param} (hp : ∀ p ∈ ps, p.allowNull = false) (args : List V)
    (hn : ∃ i v, i < ps.length ∧ args[i]? = some v ∧ v.isNull = true) : checkArgs ps var args ≠ .ok := by
  induction ps generalizing args with
  | nil => obtain ⟨_, _, h, _⟩ := hn; simp at h
  | cons p ps ih =>
    obtain ⟨i, v, hi, hv, hn⟩ := hn
    cases args with
    | nil => simp at hv
    | cons a l =>
      simp only [checkArgs]
      cases i with
      | zero =>
        cases hv
        rw [show checkArg p v = .err by unfold checkArg; rw [if_pos]; simp [hn, hp p List.mem_cons_self]]
        simp
      | succ i =>
        split
        · exact ih (fun q hq => hp q (List.mem_cons_of_mem _ hq)) l ⟨i, v, by simpa using hi, by simpa using hv, hn⟩
        · assumption

end Verif.Typed
