import Verif.Lemmas.DetGlobal
set_option linter.unusedSimpArgs false
/-! `JsonUnmarshal` does not panic when the specification fits the types. -/
namespace Verif.Det

theorem Out.bind_ne_panic {α β : Type} {x : Out α} {f : α → Out β} (hx : x ≠ .panic)
    (hf : ∀ a, x = .ok a → f a ≠ .panic) : x.bind f ≠ .panic := by
  cases x with
  | ok a => exact hf a rfl
  | err => simp [Out.bind]
  | panic => exact absurd rfl hx
  | hang => simp [Out.bind]

section
variable {env : Env} {ord : List Bytes → List Bytes → List Bytes}
variable {el : List Bytes → Cls → Doc → Out Inst}

/-- The elements made for `s` fit a variable of type `et`. -/
def ElFits (env : Env) (el : List Bytes → Cls → Doc → Out Inst) (et : Ty) (s : Cls) : Prop :=
  ∀ p d, el p s d ≠ .panic ∧ ∀ i, el p s d = .ok i → assignable env et i.cls = true

theorem store_ne_panic {t i} (h : assignable env t i.cls = true) : store env t i ≠ .panic := by
  simp [store, h]

theorem mapLoop_np {path et specs first raw} (h : ∀ s ∈ specs.map Prod.snd, ElFits env el et s)
    (hf : first ∈ specs.map Prod.snd) (keys acc) :
    mapLoop env el path .str et specs first raw keys acc ≠ .panic := by
  induction keys generalizing acc with
  | nil => simp [mapLoop]
  | cons k ks ih =>
    simp only [mapLoop]
    have he := h _ (get?_subs (k := k) hf)
    refine Out.bind_ne_panic (he _ _).1 fun i hi => Out.bind_ne_panic (store_ne_panic ((he _ _).2 i hi)) fun v _ => ?_
    simpa using ih _

theorem listMapLoop_np {path et raw} {specs : List Cls} {first : Cls} (h : ∀ s ∈ specs, ElFits env el et s)
    (hf : first ∈ specs) (n keys acc) :
    listMapLoop env el path .str et specs first raw n keys acc ≠ .panic := by
  induction keys generalizing acc n with
  | nil => simp [listMapLoop]
  | cons k ks ih =>
    simp only [listMapLoop]
    have hm : (specs[n]?).getD first ∈ specs := by
      cases h : specs[n]? with
      | none => simpa using hf
      | some v => exact List.mem_of_getElem? h
    have he := h _ hm
    refine Out.bind_ne_panic (he _ _).1 fun i hi => Out.bind_ne_panic (store_ne_panic ((he _ _).2 i hi)) fun v _ => ?_
    simpa using ih _ _

theorem sliceLoop_np {path et} {specs : List Cls} {first : Cls} (h : ∀ s ∈ specs, ElFits env el et s)
    (hf : first ∈ specs) (n js) : sliceLoop env el path et specs first n js ≠ .panic := by
  induction js generalizing n with
  | nil => simp [sliceLoop]
  | cons k ks ih =>
    simp only [sliceLoop]
    have hm : (specs[n]?).getD first ∈ specs := by
      cases h : specs[n]? with
      | none => simpa using hf
      | some v => exact List.mem_of_getElem? h
    have he := h _ hm
    refine Out.bind_ne_panic (he _ _).1 fun i hi => Out.bind_ne_panic (store_ne_panic ((he _ _).2 i hi)) fun v _ => ?_
    exact Out.bind_ne_panic (ih _) fun _ _ => by simp

theorem map2Inner_np {path et key0 raw} {inner : List (Bytes × Cls)} {first : Cls}
    (h : ∀ s ∈ inner.map Prod.snd, ElFits env el et s) (hf : ElFits env el et first) (keys acc) :
    map2Inner env el path .str2 et inner first key0 raw keys acc ≠ .panic := by
  induction keys generalizing acc with
  | nil => simp [map2Inner]
  | cons k ks ih =>
    simp only [map2Inner]
    have he : ElFits env el et ((GoMap.get? inner k).getD first) := by
      cases hk : GoMap.get? inner k with
      | none => exact hf
      | some v => exact h v (List.mem_map.2 ⟨_, GoMap.get?_mem hk, rfl⟩)
    refine Out.bind_ne_panic (he _ _).1 fun i hi => Out.bind_ne_panic (store_ne_panic ((he _ _).2 i hi)) fun v _ => ?_
    simpa using ih _

theorem map2Outer_np {path et raw} {specs : List (Bytes × List (Bytes × Cls))}
    {firstMap : List (Bytes × Cls)} {first : Cls}
    (h : ∀ s ∈ specs.flatMap (fun e => e.2.map Prod.snd), ElFits env el et s)
    (hm : ∃ k, (k, firstMap) ∈ specs) (hf : first ∈ firstMap.map Prod.snd) (keys acc) :
    map2Outer env ord el path .str2 et specs firstMap first raw keys acc ≠ .panic := by
  have hin : ∀ k m, (k, m) ∈ specs → ∀ s ∈ m.map Prod.snd, ElFits env el et s :=
    fun k m hkm s hs => h s (List.mem_flatMap.2 ⟨_, hkm, hs⟩)
  obtain ⟨k0, hk0⟩ := hm
  induction keys generalizing acc with
  | nil => simp [map2Outer]
  | cons k ks ih =>
    simp only [map2Outer]
    have hi : ∀ s ∈ ((GoMap.get? specs k).getD firstMap).map Prod.snd, ElFits env el et s := by
      cases hk : GoMap.get? specs k with
      | none => exact hin k0 _ hk0
      | some v => exact hin k _ (GoMap.get?_mem hk)
    exact Out.bind_ne_panic (map2Inner_np hi (hin k0 _ hk0 _ hf) _ _) fun _ _ => ih _

/-- What has to hold for one field. -/
def FieldFits (env : Env) (el : List Bytes → Cls → Doc → Out Inst) (t : Ty) : CVal → Prop
  | .none => True
  | .single s => ∀ p d, el p s d ≠ .panic ∧ ∀ i, el p s d = .ok i →
      assignable env t i.cls = true ∨ env.resolve t = .struct i.cls
  | .list l => ∃ et, (env.resolve t = .slice et ∨ env.resolve t = .map .str et) ∧ ∀ s ∈ l, ElFits env el et s
  | .map m => ∃ et, env.resolve t = .map .str et ∧ ∀ s ∈ m.map Prod.snd, ElFits env el et s
  | .map2 m => ∃ et, env.resolve t = .map .str2 et ∧
      ∀ s ∈ m.flatMap (fun e => e.2.map Prod.snd), ElFits env el et s

theorem fieldValue_np {path} {om : List (Bytes × CVal)} {f : Fld} {raw : Raw}
    (hk : raw.HasKind (rawKind env om f))
    (h : ∀ sv, GoMap.get? om f.name = some sv → FieldFits env el f.ty sv) :
    fieldValue env ord el path om f raw ≠ .panic := by
  cases hsv : GoMap.get? om f.name with
  | none =>
    have hkk : rawKind env om f = .val := by simp [rawKind, hsv]
    rw [hkk] at hk
    cases raw with
    | val v => simp [fieldValue, hsv]
    | list _ => exact hk.elim
    | map _ => exact hk.elim
    | map2 _ => exact hk.elim
    | msg _ => exact hk.elim
  | some sv =>
  have h := h sv hsv
  cases sv with
  | none => cases raw <;> simp [fieldValue, hsv]
  | single s =>
    have hkk : rawKind env om f = .msg := by simp [rawKind, hsv]
    rw [hkk] at hk
    cases raw with
    | msg d =>
      simp only [fieldValue, hsv]
      refine Out.bind_ne_panic ?_ (by simp)
      simp only [handleSingleStruct]
      refine Out.bind_ne_panic (h _ _).1 fun i hi => ?_
      have hfit := (h _ _).2 i hi
      split
      · rename_i t ht
        refine store_ne_panic ?_
        rcases hfit with h1 | h1
        · exact h1
        · rw [ht] at h1; cases h1
      · rename_i t ht
        refine store_ne_panic ?_
        rcases hfit with h1 | h1
        · exact h1
        · rw [ht] at h1; cases h1
      · rename_i c hc
        rcases hfit with h1 | h1
        · simp [assignable, hc] at h1
        · rw [hc] at h1; cases h1; simp
      · rename_i h1 h2 h3
        rcases hfit with h4 | h4
        · exfalso
          unfold assignable at h4
          split at h4
          · rename_i h5; exact h1 _ h5
          · rename_i h5; exact h2 _ h5
          · simp at h4
        · exact absurd h4 (h3 _)
    | list _ => exact hk.elim
    | map _ => exact hk.elim
    | map2 _ => exact hk.elim
    | val _ => exact hk.elim
  | list l =>
    obtain ⟨et, ht, hall⟩ := h
    simp only [fieldValue, hsv]
    refine Out.bind_ne_panic ?_ (by simp)
    unfold handleListOrMapStruct
    cases l with
    | nil => simp
    | cons first rest =>
      simp only
      rcases ht with ht | ht
      · have hkk : rawKind env om f = .list := by simp [rawKind, hsv, ht]
        rw [hkk] at hk
        cases raw with
        | list js =>
          simp only [ht]
          exact Out.bind_ne_panic (sliceLoop_np hall (by simp) _ _) (by simp)
        | msg _ => exact hk.elim
        | map _ => exact hk.elim
        | map2 _ => exact hk.elim
        | val _ => exact hk.elim
      · have hkk : rawKind env om f = .map := by simp [rawKind, hsv, ht]
        rw [hkk] at hk
        cases raw with
        | map m =>
          simp only [ht]
          exact Out.bind_ne_panic (listMapLoop_np hall (by simp) _ _ _) (by simp)
        | msg _ => exact hk.elim
        | list _ => exact hk.elim
        | map2 _ => exact hk.elim
        | val _ => exact hk.elim
  | map specs =>
    obtain ⟨et, ht, hall⟩ := h
    have hkk : rawKind env om f = .map := by simp [rawKind, hsv]
    rw [hkk] at hk
    cases raw with
    | map m =>
      simp only [fieldValue, hsv]
      refine Out.bind_ne_panic ?_ (by simp)
      unfold handleMapStruct
      split
      · simp
      · rename_i first hfirst
        simp only [ht]
        obtain ⟨k, hk⟩ := getFirst_mem hfirst
        exact Out.bind_ne_panic (mapLoop_np hall (List.mem_map.2 ⟨_, hk, rfl⟩) _ _) (by simp)
    | list _ => exact hk.elim
    | msg _ => exact hk.elim
    | map2 _ => exact hk.elim
    | val _ => exact hk.elim
  | map2 specs =>
    obtain ⟨et, ht, hall⟩ := h
    have hkk : rawKind env om f = .map2 := by simp [rawKind, hsv]
    rw [hkk] at hk
    cases raw with
    | map2 m =>
      simp only [fieldValue, hsv]
      refine Out.bind_ne_panic ?_ (by simp)
      unfold handleMap2Struct
      split
      · simp
      · rename_i firstMap hfm
        split
        · simp
        · rename_i firstStruct hfs
          simp only [ht]
          obtain ⟨k, hk⟩ := getFirst_mem hfs
          exact Out.bind_ne_panic (map2Outer_np hall (getFirst_mem hfm) (List.mem_map.2 ⟨_, hk, rfl⟩) _ _) (by simp)
    | list _ => exact hk.elim
    | msg _ => exact hk.elim
    | map _ => exact hk.elim
    | val _ => exact hk.elim

theorem fieldLoop_np {path} {om : List (Bytes × CVal)} (l : List (Fld × Raw)) (tgt : Inst)
    (h : ∀ x ∈ l, fieldValue env ord el path om x.1 x.2 ≠ .panic) :
    fieldLoop env ord el path om l tgt ≠ .panic := by
  induction l generalizing tgt with
  | nil => simp [fieldLoop]
  | cons x l ih =>
    obtain ⟨f, raw⟩ := x
    have ih := fun t => ih t (fun x hx => h x (List.mem_cons_of_mem _ hx))
    have h0 := h (f, raw) (by simp)
    simp only [fieldLoop]
    split
    · exact ih _
    · exact ih _
    · simp
    · rename_i hp; exact absurd hp h0
    · simp
end

theorem FitsN.anti {env ext} {P P' : Bytes → Nat → Prop} (hP : ∀ nm c, P' nm c → P nm c) :
    ∀ {n s c}, FitsN env ext P n s c → FitsN env ext P' n s c
  | 0, _, _, _ => trivial
  | n + 1, s, c, h => by
    rcases h with h | ⟨h1, h2, h3⟩
    · exact Or.inl h
    · refine Or.inr ⟨h1, h2, fun f hf sv hsv => ?_⟩
      have h := h3 f hf sv hsv
      cases sv with
      | none => trivial
      | single s' => exact fun c' hc' => ⟨(h c' (hP _ _ hc')).1, (h c' (hP _ _ hc')).2.anti hP⟩
      | list l =>
        obtain ⟨et, ht, h⟩ := h
        exact ⟨et, ht, fun s' hs' c' hc' => ⟨(h s' hs' c' (hP _ _ hc')).1, (h s' hs' c' (hP _ _ hc')).2.anti hP⟩⟩
      | map l =>
        obtain ⟨et, ht, h⟩ := h
        exact ⟨et, ht, fun s' hs' c' hc' => ⟨(h s' hs' c' (hP _ _ hc')).1, (h s' hs' c' (hP _ _ hc')).2.anti hP⟩⟩
      | map2 l =>
        obtain ⟨et, ht, h⟩ := h
        exact ⟨et, ht, fun s' hs' c' hc' => ⟨(h s' hs' c' (hP _ _ hc')).1, (h s' hs' c' (hP _ _ hc')).2.anti hP⟩⟩

theorem decode_np {env ext fuel} (d : Nat) : ∀ {s : Cls}, s.depth ≤ d → ∀ {ref path tgt dat},
    ref.keys.Nodup → (∀ k, GoMap.get? ref k ≠ some (.tmpl .bad)) →
    FitsN env ext (Origin env ref tgt.cls) d s tgt.cls →
    decode env ext fuel ref path tgt s dat ≠ .panic := by
  induction d with
  | zero => intro s hs; obtain ⟨a, c⟩ := s; simp [Cls.depth] at hs
  | succ d ih =>
    intro s hs ref path tgt dat hn hbad hfit
    rw [decode_eq]
    unfold jsonUnmarshalStep
    split
    · unfold plainUnmarshal; split <;> simp
    · rename_i hne
      split
      · simp
      · rename_i reg hreg
        rcases hfit with hfit | ⟨hnd, hso, hfit⟩
        · exact absurd hfit hne
        · simp only
          rw [if_neg (by simp [hnd, hso])]
          split
          · simp
          · rename_i raws hraws
            obtain ⟨m, hm, hl, hget⟩ := rawDecode_get hraws
            obtain ⟨hregn, auto, hauto, hregk⟩ := mergeReg_spec hn hreg
            have hregbad : ∀ k, GoMap.get? reg k ≠ some .bad := by
              intro k hk
              rw [hregk] at hk
              cases ht : tmplOf ref k with
              | some t =>
                rw [ht] at hk; simp at hk; subst hk
                exact hbad k (tmplOf_eq.1 ht)
              | none =>
                rw [ht] at hk; simp at hk
                rcases collectN_sound hauto _ _ hk with h1 | ⟨c', u, h1, h2, h3, h4⟩
                · simp [GoMap.get?] at h1
                · cases h4
            apply fieldLoop_np
            rintro ⟨f, raw⟩ hx
            obtain ⟨i, hi⟩ := List.mem_iff_getElem?.1 hx
            rw [List.getElem?_zip_eq_some] at hi
            obtain ⟨raw', hr', hv'⟩ := hget i f hi.1
            rw [hi.2] at hr'; cases hr'
            refine fieldValue_np (rawFold_kind _ hv') fun sv hsv => ?_
            have hfm : f ∈ loopFields (env.struct tgt.cls).fields := List.mem_of_getElem? hi.1
            have hf := hfit f hfm sv hsv
            have hel : ∀ s' ∈ sv.subs, (∀ c', Origin env ref tgt.cls s'.name c' →
                FitsN env ext (Origin env ref tgt.cls) d s' c') → ∀ p dd,
                element env ext reg (decode env ext fuel reg.toRef) p s' dd ≠ .panic ∧
                ∀ i, element env ext reg (decode env ext fuel reg.toRef) p s' dd = .ok i →
                  Origin env ref tgt.cls s'.name i.cls := by
              intro s' hs' hf' p dd
              constructor
              · unfold element
                split
                · simp
                · simp
                · rename_i hb; exact absurd hb (hregbad _)
                · rename_i c content hc
                  have hsd : s' ∈ s.subs := List.mem_flatMap.2 ⟨_, GoMap.get?_mem hsv, hs'⟩
                  have hdep := Cls.subs_depth hsd
                  have := ih (s := s') (by omega) (ref := reg.toRef) (path := p) (tgt := ⟨c, fresh env ext c⟩)
                    (dat := dd) (toRef_nodup hregn)
                    (fun k hk => by
                      rw [toRef_get] at hk
                      simp only [Option.map_eq_some_iff, RefV.tmpl.injEq, exists_eq_right] at hk
                      exact hregbad k hk)
                    ((hf' c (origin_of_reg hn hreg hc)).anti fun nm c' ho => origin_nested hn hreg hc ho)
                  split
                  · simp
                  · simp
                  · rename_i hp; exact absurd hp this
                  · simp
              · intro i hi
                obtain ⟨c, content, fields, e1, e2, rfl⟩ := element_ok hi
                exact origin_of_reg hn hreg e1
            cases sv with
            | none => trivial
            | single s' =>
              intro p dd
              have := hel s' (by simp [CVal.subs]) (fun c' hc' => (hf c' hc').2) p dd
              exact ⟨this.1, fun i hi => (hf _ (this.2 i hi)).1.imp assignable_iff.2 id⟩
            | list l =>
              obtain ⟨et, ht, hf⟩ := hf
              refine ⟨et, ht, fun s' hs' p dd => ?_⟩
              have := hel s' hs' (fun c' hc' => (hf s' hs' c' hc').2) p dd
              exact ⟨this.1, fun i hi => assignable_iff.2 (hf s' hs' _ (this.2 i hi)).1⟩
            | map l =>
              obtain ⟨et, ht, hf⟩ := hf
              refine ⟨et, ht, fun s' hs' p dd => ?_⟩
              have := hel s' hs' (fun c' hc' => (hf s' hs' c' hc').2) p dd
              exact ⟨this.1, fun i hi => assignable_iff.2 (hf s' hs' _ (this.2 i hi)).1⟩
            | map2 l =>
              obtain ⟨et, ht, hf⟩ := hf
              refine ⟨et, ht, fun s' hs' p dd => ?_⟩
              have := hel s' hs' (fun c' hc' => (hf s' hs' c' hc').2) p dd
              exact ⟨this.1, fun i hi => assignable_iff.2 (hf s' hs' _ (this.2 i hi)).1⟩

end Verif.Det
