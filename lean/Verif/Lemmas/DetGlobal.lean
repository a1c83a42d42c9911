import Verif.Lemmas.DetRaw
import Verif.Lemmas.Collect
set_option linter.unusedSimpArgs false
/-! Properties of `JsonUnmarshal` at every depth. -/
namespace Verif.Det

/-! ## The registry -/

theorem collectN_nodup {env : Env} {zero impls} {fuel : Nat} {t : Ty} {ref ref' : Reg}
    (h : collectN env zero impls fuel t ref = some ref') (h0 : ref.keys.Nodup) : ref'.keys.Nodup := by
  induction fuel generalizing t ref ref' with
  | zero => simp [collectN] at h
  | succ fuel ih =>
    refine collectN_inv (P := fun r => r.keys.Nodup) h h0 ?_ ?_
    · intro c _ _ _
      unfold register
      split
      · exact GoMap.nodup_set h0
      · exact GoMap.nodup_set (GoMap.nodup_set h0)
    · intro u r r' _ hr hc; exact ih hc hr

/-- The template that `ref` has for a name. -/
def tmplOf (ref : Ref) (k : Bytes) : Option Tmpl :=
  match GoMap.get? ref k with | some (.tmpl t) => some t | _ => none

theorem tmplOf_eq {ref : Ref} {k : Bytes} {t : Tmpl} :
    tmplOf ref k = some t ↔ GoMap.get? ref k = some (.tmpl t) := by
  unfold tmplOf
  split
  · rename_i t' h; simp [h]
  · rename_i h
    simp only [false_iff, reduceCtorEq]
    exact fun hc => h t hc

theorem tmplOf_none {ref : Ref} {k : Bytes} :
    tmplOf ref k = none ↔ ∀ t, GoMap.get? ref k ≠ some (.tmpl t) := by
  unfold tmplOf
  split
  · rename_i t' h; simp [h]
  · rename_i h
    simp only [true_iff]
    exact h

theorem merge_get (ref : Ref) (hn : ref.keys.Nodup) (auto : Reg) (k : Bytes) :
    GoMap.get? (ref.foldl (fun reg e => match e.2 with | .tmpl t => GoMap.set reg e.1 t | .impls _ => reg) auto) k
      = (tmplOf ref k <|> GoMap.get? auto k) := by
  induction ref generalizing auto with
  | nil => simp [tmplOf, GoMap.get?]
  | cons e ref ih =>
    obtain ⟨k', v⟩ := e
    simp only [GoMap.keys, List.map_cons, List.nodup_cons] at hn
    simp only [List.foldl_cons]
    rw [ih hn.2]
    have hnot : k' = k → tmplOf ref k = none := by
      rintro rfl
      unfold tmplOf
      rw [GoMap.get?_eq_none.2 hn.1]
    by_cases hk : k' = k
    · rw [hnot hk]
      cases v with
      | impls l => simp [tmplOf, GoMap.get?, hk]
      | tmpl t => simp [tmplOf, GoMap.get?, hk, GoMap.get?_set_self]
    · have h1 : tmplOf ((k', v) :: ref) k = tmplOf ref k := by simp [tmplOf, GoMap.get?, hk]
      rw [h1]
      cases v with
      | impls l => rfl
      | tmpl t => simp only [GoMap.get?_set_ne hk]

theorem mergeReg_spec {env ext fuel ref c reg} (hn : ref.keys.Nodup) (h : mergeReg env ext fuel ref c = some reg) :
    reg.keys.Nodup ∧ ∃ auto, collectN env (fresh env ext) (implementations ref) fuel (.ptr (.struct c)) [] = some auto ∧
      ∀ k, GoMap.get? reg k = (tmplOf ref k <|> GoMap.get? auto k) := by
  unfold mergeReg at h
  simp only [Option.map_eq_some_iff] at h
  obtain ⟨auto, ha, rfl⟩ := h
  refine ⟨?_, auto, ha, fun k => merge_get ref hn auto k⟩
  have : ∀ (l : Ref) (r : Reg), r.keys.Nodup →
      (l.foldl (fun reg e => match e.2 with | .tmpl t => GoMap.set reg e.1 t | .impls _ => reg) r).keys.Nodup := by
    intro l
    induction l with
    | nil => intro r h; exact h
    | cons e l ih =>
      intro r h
      simp only [List.foldl_cons]
      apply ih
      split
      · exact GoMap.nodup_set h
      · exact h
  exact this ref auto (collectN_nodup ha (by simp [GoMap.keys]))

theorem toRef_get (reg : Reg) (k : Bytes) : GoMap.get? reg.toRef k = (GoMap.get? reg k).map .tmpl :=
  GoMap.get?_map reg _ k

theorem toRef_nodup {reg : Reg} (h : reg.keys.Nodup) : reg.toRef.keys.Nodup := by
  have : reg.toRef.keys = reg.keys := by simp [Reg.toRef, GoMap.keys, Function.comp_def]
  rw [this]; exact h

theorem toRef_impls (reg : Reg) : implementations reg.toRef = [] := by
  simp [implementations, Reg.toRef]

theorem Reach.mono_impls {env : Env} {impls : GoMap Bytes (List (Option Ty))} {t u : Ty}
    (h : Reach env [] t u) : Reach env impls t u := by
  induction h with
  | refl => exact .refl
  | step _ hs ih =>
    refine .step ih ?_
    cases hs with
    | ptr h => exact .ptr h
    | slice h => exact .slice h
    | map h => exact .map h
    | field h hf => exact .field h hf
    | impl _ h => simp [GoMap.get?] at h

/-- A class found in the registry has an origin. -/
theorem origin_of_reg {env ext fuel ref root reg name c content} (hn : ref.keys.Nodup)
    (h : mergeReg env ext fuel ref root = some reg) (hg : GoMap.get? reg name = some (.ptr c content)) :
    Origin env ref root name c := by
  obtain ⟨_, auto, ha, hk⟩ := mergeReg_spec hn h
  rw [hk] at hg
  cases ht : tmplOf ref name with
  | some t =>
    rw [ht] at hg; simp at hg; subst hg
    exact Or.inl ⟨content, tmplOf_eq.1 ht⟩
  | none =>
    rw [ht] at hg; simp at hg
    rcases collectN_sound ha _ _ hg with h1 | ⟨c', u, h1, h2, h3, h4⟩
    · simp [GoMap.get?] at h1
    · cases h4
      exact Or.inr ⟨tmplOf_none.1 ht, h3, root, u, Or.inl rfl, h1, h2⟩

/-- The types of templates in the registry. -/
theorem origin_root {env ext fuel ref root reg k c content} (hn : ref.keys.Nodup)
    (h : mergeReg env ext fuel ref root = some reg) (hg : GoMap.get? reg k = some (.ptr c content)) :
    ∃ r, (r = root ∨ ∃ k content, GoMap.get? ref k = some (.tmpl (.ptr r content))) ∧
      ∃ u, Reach env (implementations ref) (.ptr (.struct r)) u ∧ env.resolve u = .struct c := by
  rcases origin_of_reg hn h hg with ⟨content, h1⟩ | ⟨_, _, r, u, h1, h2, h3⟩
  · exact ⟨c, Or.inr ⟨k, content, h1⟩, _, .step .refl (.ptr rfl), rfl⟩
  · exact ⟨r, h1, u, h2, h3⟩

theorem reach_restart {env : Env} {impls : GoMap Bytes (List (Option Ty))} {t u v : Ty} {c : Nat}
    (h1 : Reach env impls t u) (hc : env.resolve u = .struct c)
    (h2 : Reach env [] (.ptr (.struct c)) v) {d : Nat} (hd : env.resolve v = .struct d) :
    ∃ w, Reach env impls t w ∧ env.resolve w = .struct d := by
  have key : ∀ v, Reach env [] (.ptr (.struct c)) v → v = .ptr (.struct c) ∨ v = .struct c ∨ Reach env impls t v := by
    intro v hv
    induction hv with
    | refl => exact Or.inl rfl
    | step hr hs ih =>
      rename_i x y
      rcases ih with rfl | rfl | ih
      · right; left
        cases hs with
        | ptr h => cases h; rfl
        | slice h => cases h
        | map h => cases h
        | field h => cases h
        | impl h => cases h
      · right; right
        cases hs with
        | field h hf => cases h; exact .step h1 (.field hc hf)
        | ptr h => cases h
        | slice h => cases h
        | map h => cases h
        | impl h => cases h
      · right; right
        exact ih.trans (Reach.mono_impls (.step .refl hs))
  rcases key v h2 with rfl | rfl | h
  · cases hd
  · cases hd; exact ⟨u, h1, hc⟩
  · exact ⟨v, h, hd⟩

/-- Origins in a nested call are origins in the outer one. -/
theorem origin_nested {env ext fuel ref root reg name0 c0 content0 name c} (hn : ref.keys.Nodup)
    (h : mergeReg env ext fuel ref root = some reg)
    (hg : GoMap.get? reg name0 = some (.ptr c0 content0))
    (ho : Origin env reg.toRef c0 name c) : Origin env ref root name c := by
  rcases ho with ⟨content, h1⟩ | ⟨h1, h2, r, u, h3, h4, h5⟩
  · rw [toRef_get] at h1
    simp only [Option.map_eq_some_iff, RefV.tmpl.injEq, exists_eq_right] at h1
    exact origin_of_reg hn h h1
  · rw [toRef_impls] at h4
    obtain ⟨_, auto, _, hk⟩ := mergeReg_spec hn h
    have hr : ∃ k content, GoMap.get? reg k = some (.ptr r content) := by
      rcases h3 with rfl | ⟨k, content, h3⟩
      · exact ⟨_, _, hg⟩
      · rw [toRef_get] at h3
        simp only [Option.map_eq_some_iff, RefV.tmpl.injEq, exists_eq_right] at h3
        exact ⟨k, content, h3⟩
    obtain ⟨k, content, hr⟩ := hr
    obtain ⟨r0, g1, u0, g2, g3⟩ := origin_root hn h hr
    obtain ⟨w, g4, g5⟩ := reach_restart g2 g3 h4 h5
    refine Or.inr ⟨?_, h2, r0, w, g1, g4, g5⟩
    rw [← tmplOf_none]
    cases ht : tmplOf ref name with
    | none => rfl
    | some t =>
      exfalso
      have := hk name
      rw [ht] at this
      exact h1 t (by rw [toRef_get, this]; rfl)

/-! ## Everything at every depth -/

theorem ElemOk.mono {env : Env} {Q Q' : Cls → Nat → List (Bytes × Val) → Prop}
    (h : ∀ s c fs, Q s c fs → Q' s c fs) {t s v} (he : ElemOk env Q t s v) : ElemOk env Q' t s v := by
  obtain ⟨c, fs, h1, h2, h3⟩ := he
  exact ⟨c, fs, h1, h2, h _ _ _ h3⟩

theorem FieldOk.mono {env : Env} {Q Q' : Cls → Nat → List (Bytes × Val) → Prop}
    (h : ∀ s c fs, Q s c fs → Q' s c fs) {t ov sv} (hf : FieldOk env Q t ov sv) : FieldOk env Q' t ov sv := by
  cases sv with
  | none => trivial
  | single s =>
    obtain ⟨v, h1, h2⟩ := hf
    refine ⟨v, h1, ?_⟩
    rcases h2 with h2 | ⟨c, fs, h2, h3, h4⟩
    · exact Or.inl (h2.mono h)
    · exact Or.inr ⟨c, fs, h2, h3, h _ _ _ h4⟩
  | list l =>
    rcases hf with ⟨et, vs, h1, h2, h3⟩ | ⟨kt, et, m, h1, h2, h3⟩
    · refine Or.inl ⟨et, vs, h1, h2, fun k v hv => ?_⟩
      obtain ⟨s, a, c⟩ := h3 k v hv
      exact ⟨s, a, c.mono h⟩
    · refine Or.inr ⟨kt, et, m, h1, h2, fun k v hv => ?_⟩
      obtain ⟨a, s, c, d⟩ := h3 k v hv
      exact ⟨a, s, c, d.mono h⟩
  | map m =>
    obtain ⟨kt, et, m, h1, h2, h3⟩ := hf
    refine ⟨kt, et, m, h1, h2, fun k v hv => ?_⟩
    obtain ⟨a, s, c, d⟩ := h3 k v hv
    exact ⟨a, s, c, d.mono h⟩
  | map2 m =>
    obtain ⟨kt, et, m, h1, h2, h3⟩ := hf
    refine ⟨kt, et, m, h1, h2, fun k v hv => ?_⟩
    obtain ⟨a, s, c, d⟩ := h3 k v hv
    exact ⟨a, s, c, d.mono h⟩

theorem DeepOk.mono {env : Env} {P P' : Bytes → Nat → Prop} (h : ∀ n c, P n c → P' n c) :
    ∀ {n s c fs}, DeepOk env P n s c fs → DeepOk env P' n s c fs
  | 0, _, _, _, _ => trivial
  | _ + 1, _, _, _, hd => fun f hf sv hsv =>
      (hd f hf sv hsv).mono fun _ _ _ hq => ⟨h _ _ hq.1, DeepOk.mono h hq.2⟩

theorem listMapLoop_ok {env path kt et raw} {el : List Bytes → Cls → Doc → Out Inst} {specs : List Cls} {first : Cls}
    (hf : first ∈ specs) (keys : List Bytes) (n : Nat) {acc res : List (Bytes × Val)}
    (h : listMapLoop env el path kt et specs first raw n keys acc = .ok res) :
    ∀ key v, GoMap.get? res key = some v → GoMap.get? acc key = some v ∨
      kt = .str ∧ ∃ s ∈ specs, ∃ p d i, el p s d = .ok i ∧ store env et i = .ok v := by
  induction keys generalizing acc n with
  | nil => simp only [listMapLoop, Out.ok.injEq] at h; subst h; exact fun _ _ h => Or.inl h
  | cons k ks ih =>
    simp only [listMapLoop, Out.bind_ok] at h
    obtain ⟨i, hi, v, hv, h⟩ := h
    split at h
    · simp at h
    · rename_i hkt
      intro key w hw
      rcases ih _ h key w hw with h1 | h1
      · rw [get?_insertK] at h1
        split at h1
        · simp at h1; subst h1
          refine Or.inr ⟨Classical.not_not.1 hkt, _, ?_, _, _, i, hi, hv⟩
          cases hq : specs[n]? with
          | none => simpa using hf
          | some s => exact List.mem_of_getElem? hq
        · exact Or.inl h1
      · exact Or.inr h1

theorem map2Inner_kt {env path kt et raw key0} {el : List Bytes → Cls → Doc → Out Inst} {inner : List (Bytes × Cls)} {first : Cls}
    (keys : List Bytes) {acc res : List ((Bytes × Bytes) × Val)}
    (h : map2Inner env el path kt et inner first key0 raw keys acc = .ok res) : keys ≠ [] → kt = .str2 := by
  cases keys with
  | nil => simp
  | cons k ks =>
    intro _
    simp only [map2Inner, Out.bind_ok] at h
    obtain ⟨i, hi, v, hv, h⟩ := h
    split at h
    · simp at h
    · rename_i hkt; exact Classical.not_not.1 hkt

theorem map2Outer_kt {env ord path kt et} {raw : GoMap Bytes (GoMap Bytes J)}
    {el : List Bytes → Cls → Doc → Out Inst}
    {specs : List (Bytes × List (Bytes × Cls))} {firstMap : List (Bytes × Cls)} {first : Cls}
    (hord : ∀ p ks, (ord p ks).Perm ks)
    (keys : List Bytes) {acc res : List ((Bytes × Bytes) × Val)}
    (h : map2Outer env ord el path kt et specs firstMap first raw keys acc = .ok res) :
    (∃ x ∈ keys, ((GoMap.get? raw x).getD []).keys ≠ []) → kt = .str2 := by
  induction keys generalizing acc with
  | nil => simp
  | cons k ks ih =>
    rintro ⟨x, hx, hne⟩
    simp only [map2Outer, Out.bind_ok] at h
    obtain ⟨acc1, h0, h⟩ := h
    simp only [List.mem_cons] at hx
    rcases hx with rfl | hx
    · refine map2Inner_kt _ h0 (fun e => hne ?_)
      have := hord (path ++ [x]) ((GoMap.get? raw x).getD []).keys
      rw [e] at this
      exact this.symm.eq_nil
    · exact ih h ⟨x, hx, hne⟩

/-- One field of a successful call. -/
theorem fieldValue_ok {env ext reg fuel path} {om : List (Bytes × CVal)} {f : Fld} {raw : Raw} {o : Option Val}
    (hord : ∀ p ks, (ext.ord p ks).Perm ks)
    (hk : raw.HasKind (rawKind env om f))
    (h : fieldValue env ext.ord (element env ext reg (decode env ext fuel reg.toRef)) path om f raw = .ok o)
    (Q : Cls → Nat → List (Bytes × Val) → Prop)
    (hQ : ∀ p s d c content fields, GoMap.get? reg s.name = some (.ptr c content) →
      decode env ext fuel reg.toRef p ⟨c, fresh env ext c⟩ s d = .ret ⟨c, fields⟩ false → Q s c fields)
    {sv : CVal} (hsv : GoMap.get? om f.name = some sv) (old : Option Val) :
    FieldOk env Q f.ty (o <|> old) sv := by
  have hel : ∀ {et p s d i v}, element env ext reg (decode env ext fuel reg.toRef) p s d = .ok i →
      store env et i = .ok v → ElemOk env Q et s v := by
    intro et p s d i v h1 h2
    obtain ⟨c, content, fields, e1, e2, rfl⟩ := element_ok h1
    obtain ⟨ha, rfl⟩ := store_ok h2
    exact ⟨c, fields, rfl, assignable_iff.1 ha, hQ _ _ _ _ _ _ e1 e2⟩
  cases sv with
  | none => trivial
  | single s =>
    have hkk : rawKind env om f = .msg := by simp [rawKind, hsv]
    rw [hkk] at hk
    cases raw with
    | msg d =>
      simp only [fieldValue, hsv, Out.bind_ok, Out.ok.injEq] at h
      obtain ⟨v, hv, rfl⟩ := h
      simp only [handleSingleStruct, Out.bind_ok] at hv
      obtain ⟨inst, h1, h2⟩ := hv
      refine ⟨v, by simp, ?_⟩
      split at h2
      · exact Or.inl (hel h1 h2)
      · exact Or.inl (hel h1 h2)
      · rename_i c hc
        split at h2
        · rename_i hce
          simp only [Out.ok.injEq] at h2
          obtain ⟨c', content, fields, e1, e2, rfl⟩ := element_ok h1
          exact Or.inr ⟨c', fields, h2.symm, by rw [hc, hce], hQ _ _ _ _ _ _ e1 e2⟩
        · simp at h2
      · simp at h2
    | list _ => exact hk.elim
    | map _ => exact hk.elim
    | map2 _ => exact hk.elim
    | val _ => exact hk.elim
  | list l =>
    simp only [fieldValue, hsv, Out.bind_ok, Out.ok.injEq] at h
    obtain ⟨v, hv, rfl⟩ := h
    unfold handleListOrMapStruct at hv
    split at hv
    · simp at hv
    · rename_i first rest
      split at hv
      · rename_i kt et m ht
        simp only [Out.bind_ok, Out.ok.injEq] at hv
        obtain ⟨res, hres, rfl⟩ := hv
        refine Or.inr ⟨kt, et, res, ht, by simp, fun key v hv => ?_⟩
        rcases listMapLoop_ok (by simp) _ _ hres key v hv with h1 | ⟨h1, s, hs, p, d, i, h2, h3⟩
        · simp [GoMap.get?] at h1
        · exact ⟨h1, s, hs, hel h2 h3⟩
      · rename_i et js ht
        simp only [Out.bind_ok, Out.ok.injEq] at hv
        obtain ⟨vs, hvs, rfl⟩ := hv
        obtain ⟨hl, hall⟩ := sliceLoop_ok hvs
        refine Or.inl ⟨et, vs, ht, by simp, fun k v hkv => ?_⟩
        have hlt : k < js.length := by
          have := (List.getElem?_eq_some_iff.1 hkv).1; omega
        obtain ⟨i, v', e1, e2, e3⟩ := hall k _ (List.getElem?_eq_getElem hlt)
        rw [hkv] at e3; cases e3
        refine ⟨_, ?_, hel e1 e2⟩
        simp only [Nat.zero_add]
        cases hq : (first :: rest)[k]? with
        | some s => simp
        | none => right; exact ⟨List.getElem?_eq_none_iff.1 hq, by simp⟩
      · simp at hv
  | map specs =>
    have hkk : rawKind env om f = .map := by simp [rawKind, hsv]
    rw [hkk] at hk
    cases raw with
    | map m =>
      simp only [fieldValue, hsv, Out.bind_ok, Out.ok.injEq] at h
      obtain ⟨v, hv, rfl⟩ := h
      unfold handleMapStruct at hv
      split at hv
      · simp at hv
      · rename_i first hfirst
        split at hv
        · rename_i kt et ht
          simp only [Out.bind_ok, Out.ok.injEq] at hv
          obtain ⟨res, hres, rfl⟩ := hv
          have hp := hord (path ++ [f.name]) m.keys
          obtain ⟨h0, h1, h2⟩ := mapLoop_ok _ (hp.nodup_iff.2 hk) hres
          refine ⟨kt, et, res, ht, by simp, fun key v hv => ?_⟩
          by_cases hm : key ∈ ext.ord (path ++ [f.name]) m.keys
          · obtain ⟨i, v', e1, e2, e3⟩ := h2 key hm
            rw [hv] at e3; cases e3
            exact ⟨h0 (fun e => by rw [e] at hm; simp at hm), _, classFor_getD hfirst key, hel e1 e2⟩
          · rw [h1 key hm] at hv; simp [GoMap.get?] at hv
        · simp at hv
    | list _ => exact hk.elim
    | msg _ => exact hk.elim
    | map2 _ => exact hk.elim
    | val _ => exact hk.elim
  | map2 specs =>
    have hkk : rawKind env om f = .map2 := by simp [rawKind, hsv]
    rw [hkk] at hk
    cases raw with
    | map2 m =>
      simp only [fieldValue, hsv, Out.bind_ok, Out.ok.injEq] at h
      obtain ⟨v, hv, rfl⟩ := h
      unfold handleMap2Struct at hv
      split at hv
      · simp at hv
      · rename_i firstMap hfm
        split at hv
        · simp at hv
        · rename_i firstStruct hfs
          split at hv
          · rename_i kt et ht
            simp only [Out.bind_ok, Out.ok.injEq] at hv
            obtain ⟨res, hres, rfl⟩ := hv
            have hp := hord (path ++ [f.name]) m.keys
            obtain ⟨h1, h2⟩ := map2Outer_ok hord hk.2 _ (hp.nodup_iff.2 hk.1) hres
            have h0 := map2Outer_kt hord _ hres
            refine ⟨kt, et, res, ht, by simp, fun key v hv => ?_⟩
            obtain ⟨key0, key1⟩ := key
            by_cases hm : key0 ∈ ext.ord (path ++ [f.name]) m.keys ∧
                key1 ∈ ((GoMap.get? m key0).getD []).keys
            · obtain ⟨i, v', e1, e2, e3⟩ := h2 key0 hm.1 key1 hm.2
              rw [hv] at e3; cases e3
              refine ⟨h0 ⟨key0, hm.1, fun e => by rw [e] at hm; simp at hm⟩, _,
                ⟨_, classFor_getD hfm key0, ?_⟩, hel e1 e2⟩
              cases hq : GoMap.get? ((GoMap.get? specs key0).getD firstMap) key1 with
              | some s => left; simp
              | none =>
                right
                refine ⟨GoMap.get?_eq_none.1 hq, ?_⟩
                obtain ⟨k0, hk0m, hk0l⟩ := getFirst_least hfm
                obtain ⟨k1, hk1m, hk1l⟩ := getFirst_least hfs
                exact ⟨k0, firstMap, k1, hk0m, hk0l, by simpa using hk1m, hk1l⟩
            · rw [h1 (key0, key1) (fun a c => hm ⟨a, c⟩)] at hv; simp [GoMap.get?] at hv
          · simp at hv
    | list _ => exact hk.elim
    | map _ => exact hk.elim
    | msg _ => exact hk.elim
    | val _ => exact hk.elim

theorem decode_deep {env ext fuel} (hord : ∀ p ks, (ext.ord p ks).Perm ks) (n : Nat) :
    ∀ {ref path tgt s dat t'}, ref.keys.Nodup →
      decode env ext fuel ref path tgt s dat = .ret t' false →
      DeepOk env (Origin env ref tgt.cls) n s tgt.cls t'.fields := by
  induction n with
  | zero => intros; trivial
  | succ n ih =>
    intro ref path tgt s dat t' hn h f hf sv hsv
    have hne : s.fields ≠ [] := by intro e; rw [e] at hsv; simp [GoMap.get?] at hsv
    obtain ⟨reg, m, hreg, hm, _, _, hfld⟩ := decode_ok hne h
    obtain ⟨i, hi⟩ := List.mem_iff_getElem?.1 hf
    obtain ⟨raw, o, hraw, hv, hget⟩ := hfld i f hi
    have hk := rawFold_kind _ hraw
    rw [hget]
    refine fieldValue_ok hord hk hv _ ?_ hsv _
    intro p s' d c content fields hg hd
    refine ⟨origin_of_reg hn hreg hg, ?_⟩
    have := ih (toRef_nodup (mergeReg_spec hn hreg).1) hd
    exact this.mono fun nm c' ho => origin_nested hn hreg hg ho

end Verif.Det
