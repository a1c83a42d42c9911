import Verif.Lemmas.DetBasic
import Verif.Spec.Det
set_option linter.unusedSimpArgs false
/-! What a successful `JsonUnmarshal` has done. -/
namespace Verif.Det

theorem Out.bind_ok {α β : Type} {x : Out α} {f : α → Out β} {y : β} :
    x.bind f = .ok y ↔ ∃ a, x = .ok a ∧ f a = .ok y := by
  cases x <;> simp [Out.bind]

/-! ## The names of fields -/

theorem takeWhile_comma {k opts : Bytes} (h : 44 ∉ k) : (k ++ 44 :: opts).takeWhile (· ≠ 44) = k := by
  induction k with
  | nil => simp
  | cons c k ih =>
    simp only [List.mem_cons, not_or] at h
    simp only [List.cons_append, List.takeWhile_cons]
    rw [ih h.2]
    simp [Ne.symm h.1]

theorem takeWhile_all {k : Bytes} (h : 44 ∉ k) : k.takeWhile (· ≠ 44) = k := by
  induction k with
  | nil => simp
  | cons c k ih =>
    simp only [List.mem_cons, not_or] at h
    simp only [List.takeWhile_cons]
    rw [ih h.2]
    simp [Ne.symm h.1]

theorem jsonName_iff {f : Fld} {k : Bytes} : JsonName f k ↔ f.key = k := by
  constructor
  · rintro (⟨h1, h2, h3⟩ | ⟨h1, h2, h3⟩ | h | h)
    · simp only [Fld.key, h3, takeWhile_all h2]
    · simp only [Fld.key, h3, takeWhile_comma h2]
    · simp [Fld.key, h]
    · simp [Fld.key, h]
  · rintro rfl
    have hsplit : ∀ l : Bytes, 44 ∉ l.takeWhile (· ≠ 44) ∧ (l = l.takeWhile (· ≠ 44) ∨ ∃ o, l = l.takeWhile (· ≠ 44) ++ 44 :: o) := by
      intro l
      induction l with
      | nil => simp
      | cons c l ih =>
        by_cases hc : c = 44
        · subst hc; exact ⟨by simp, .inr ⟨l, by simp⟩⟩
        · rw [List.takeWhile_cons, if_pos (by simp [hc])]
          refine ⟨by simp only [List.mem_cons, not_or]; exact ⟨Ne.symm hc, ih.1⟩, ?_⟩
          rcases ih.2 with h | ⟨o, h⟩
          · exact .inl (by rw [← h])
          · exact .inr ⟨o, by rw [List.cons_append, ← h]⟩
    obtain ⟨h1, h2⟩ := hsplit f.tag
    unfold Fld.key
    split
    · rename_i h
      rw [h] at h2
      rcases h2 with h2 | ⟨o, h2⟩
      · exact .untagged h2
      · exact .unnamed (opts := o) (by simpa using h2)
    · rename_i hne
      rcases h2 with h2 | ⟨o, h2⟩
      · exact .tag hne h1 h2
      · exact .options hne h1 h2

theorem findIdx_iff {p : Fld → Bool} {fs : List Fld} {i : Nat} :
    fs.findIdx? p = some i ↔ ∃ f, fs[i]? = some f ∧ p f = true ∧ ∀ j g, j < i → fs[j]? = some g → p g = false := by
  induction fs generalizing i with
  | nil => simp
  | cons x fs ih =>
    rw [List.findIdx?_cons]
    by_cases hx : p x = true
    · rw [if_pos hx]
      constructor
      · intro h
        simp only [Option.some.injEq] at h
        subst h
        exact ⟨x, rfl, hx, fun j g hj => absurd hj (Nat.not_lt_zero _)⟩
      · rintro ⟨f, -, -, h⟩
        cases i with
        | zero => rfl
        | succ i => have := h 0 x (Nat.succ_pos _) rfl; rw [hx] at this; cases this
    · rw [if_neg hx]
      cases i with
      | zero => simp [hx]
      | succ i =>
        simp only [Option.map_eq_some_iff, Nat.add_right_cancel_iff, exists_eq_right, ih, List.getElem?_cons_succ]
        constructor
        · rintro ⟨f, h1, h2, h3⟩
          refine ⟨f, h1, h2, fun j g hj hg => ?_⟩
          cases j with
          | zero => simp only [List.getElem?_cons_zero, Option.some.injEq] at hg; subst hg; simpa using hx
          | succ j => exact h3 j g (Nat.lt_of_succ_lt_succ hj) (by simpa using hg)
        · rintro ⟨f, h1, h2, h3⟩
          exact ⟨f, h1, h2, fun j g hj hg => h3 (j + 1) g (Nat.succ_lt_succ hj) (by simpa using hg)⟩

theorem belongsTo_iff {ext : Ext} {fs : List Fld} {key : Bytes} {i : Nat} : BelongsTo ext fs key i ↔ findField ext fs key = some i := by
  unfold BelongsTo findField
  simp only [jsonName_iff]
  cases h : fs.findIdx? (fun f => decide (f.key = key)) with
  | some k =>
    simp only [Option.some.injEq]
    obtain ⟨f, h1, h2, h3⟩ := findIdx_iff.1 h
    constructor
    · rintro (h' | ⟨h', -⟩)
      · have : fs.findIdx? (fun f => decide (f.key = key)) = some i :=
          findIdx_iff.2 (by simpa using h')
        rw [h] at this
        simpa using this
      · exact absurd (by simpa using h2) (h' f (List.mem_of_getElem? h1))
    · rintro rfl
      exact .inl ⟨f, h1, by simpa using h2, by simpa using h3⟩
  | none =>
    have hn : ∀ g ∈ fs, ¬ g.key = key := by simpa [List.findIdx?_eq_none_iff] using h
    simp only [findIdx_iff, decide_eq_true_eq, decide_eq_false_iff_not]
    constructor
    · rintro (⟨f, h1, h2, -⟩ | ⟨-, f, k, h1, h2, h3, h4⟩)
      · exact absurd h2 (hn f (List.mem_of_getElem? h1))
      · exact ⟨f, h1, by rw [h2]; exact h3, fun j g hj hg => h4 j g _ hj hg rfl⟩
    · rintro ⟨f, h1, h2, h3⟩
      exact .inr ⟨hn, f, _, h1, rfl, h2, fun j g k' hj hg e => by rw [← e]; exact h3 j g hj hg⟩

theorem valuesOf_eq (ext : Ext) (fs : List Fld) (i : Nat) (m : List (Bytes × J)) :
    valuesOf ext fs i m = (m.filter fun e => findField ext fs e.1 = some i).map Prod.snd := by
  unfold valuesOf
  congr 1
  refine List.filter_congr fun e _ => ?_
  simp only [belongsTo_iff]

/-! ## The raw struct -/

theorem rawMember_get {ext : Ext} {fs : List Fld} {raws raws' : List Raw} {e : Bytes × J}
    (h : rawMember ext fs raws e = some raws') (hl : raws.length = fs.length) :
    raws'.length = fs.length ∧ ∀ i f r, fs[i]? = some f → raws[i]? = some r →
      ∃ r', raws'[i]? = some r' ∧
        (if findField ext fs e.1 = some i then rawSet ext f r e.2 else some r) = some r' := by
  unfold rawMember at h
  split at h
  · rename_i hn
    simp only [Option.some.injEq] at h
    subst h
    refine ⟨hl, fun i f r hf hr => ⟨r, hr, ?_⟩⟩
    simp [hn]
  · rename_i i hi
    split at h
    · rename_i f r hf hr
      simp only [Option.map_eq_some_iff] at h
      obtain ⟨r', hr', rfl⟩ := h
      refine ⟨by simpa using hl, fun i' f' r0 hf' hr0 => ?_⟩
      by_cases hii : i = i'
      · subst hii
        rw [hf] at hf'; rw [hr] at hr0
        simp only [Option.some.injEq] at hf' hr0
        subst hf'; subst hr0
        have : i < raws.length := by
          have := List.getElem?_eq_some_iff.1 hr; exact this.1
        exact ⟨r', by simp [this], by simp [hi, hr']⟩
      · exact ⟨r0, by simp [List.getElem?_set, hii, hr0], by simp [hi, hii]⟩
    · rename_i hno
      simp only [Option.some.injEq] at h
      subst h
      refine ⟨hl, fun i' f' r0 hf' hr0 => ⟨r0, hr0, ?_⟩⟩
      by_cases hii : i = i'
      · subst hii; exact absurd hr0 (hno _ _ hf')
      · simp [hi, hii]

theorem rawFold_get {ext : Ext} {fs : List Fld} (m : List (Bytes × J)) {raws raws' : List Raw}
    (h : m.foldlM (rawMember ext fs) raws = some raws') (hl : raws.length = fs.length) :
    raws'.length = fs.length ∧ ∀ i f r, fs[i]? = some f → raws[i]? = some r →
      ∃ r', raws'[i]? = some r' ∧ (valuesOf ext fs i m).foldlM (rawSet ext f) r = some r' := by
  induction m generalizing raws with
  | nil =>
    simp only [List.foldlM_nil, Option.pure_def, Option.some.injEq] at h
    subst h
    exact ⟨hl, fun i f r hf hr => ⟨r, hr, rfl⟩⟩
  | cons e m ih =>
    simp only [List.foldlM_cons, Option.bind_eq_bind, Option.bind_eq_some_iff] at h
    obtain ⟨raws1, h1, h2⟩ := h
    obtain ⟨hl1, g1⟩ := rawMember_get h1 hl
    obtain ⟨hl2, g2⟩ := ih h2 hl1
    refine ⟨hl2, fun i f r hf hr => ?_⟩
    obtain ⟨r1, hr1, e1⟩ := g1 i f r hf hr
    obtain ⟨r2, hr2, e2⟩ := g2 i f r1 hf hr1
    refine ⟨r2, hr2, ?_⟩
    rw [valuesOf_eq] at e2 ⊢
    simp only [List.filter_cons]
    split at e1
    · rename_i hi; simp [hi, e1, e2]
    · rename_i hi
      simp only [Option.some.injEq] at e1
      subst e1; simp [hi, e2]

/-- The members of the document that count. -/
def membersOf : Doc → Option (List (Bytes × J))
  | some (.obj m) => some m
  | some .null => some []
  | _ => none

theorem rawDecode_get {ext : Ext} {kind : Fld → RawKind} {fs : List Fld} {d : Doc} {raws : List Raw}
    (h : rawDecode ext kind fs d = some raws) :
    ∃ m, membersOf d = some m ∧ raws.length = fs.length ∧
      ∀ i f, fs[i]? = some f → ∃ r, raws[i]? = some r ∧
        (valuesOf ext fs i m).foldlM (rawSet ext f) (rawZero ext (kind f) f) = some r := by
  unfold rawDecode at h
  have hz : ∀ (i : Nat) (f : Fld), fs[i]? = some f →
      (fs.map fun f => rawZero ext (kind f) f)[i]? = some (rawZero ext (kind f) f) := by
    intro i f hf; simp [hf]
  split at h
  · simp at h
  · simp only [Option.some.injEq] at h
    subst h
    refine ⟨[], rfl, by simp, fun i f hf => ⟨_, hz i f hf, ?_⟩⟩
    simp [valuesOf]
  · rename_i m
    obtain ⟨hl, g⟩ := rawFold_get m h (by simp)
    exact ⟨m, rfl, hl, fun i f hf => g i f _ hf (hz i f hf)⟩
  · simp at h

/-! ## The field loop -/

section
variable {env : Env} {ord : List Bytes → List Bytes → List Bytes}
variable {el : List Bytes → Cls → Doc → Out Inst}

theorem fieldLoop_ok {path} {om : List (Bytes × CVal)} (l : List (Fld × Raw)) {tgt t' : Inst}
    (h : fieldLoop env ord el path om l tgt = .ret t' false)
    (hn : (l.map fun x => x.1.name).Nodup) :
    t'.cls = tgt.cls ∧
    (∀ n, n ∉ l.map (fun x => x.1.name) → GoMap.get? t'.fields n = GoMap.get? tgt.fields n) ∧
    (∀ f raw, (f, raw) ∈ l → ∃ o, fieldValue env ord el path om f raw = .ok o ∧
      GoMap.get? t'.fields f.name = (o <|> GoMap.get? tgt.fields f.name)) := by
  induction l generalizing tgt with
  | nil =>
    simp only [fieldLoop, Res.ret.injEq, and_true] at h
    subst h; simp
  | cons x l ih =>
    obtain ⟨f, raw⟩ := x
    simp only [List.map_cons, List.nodup_cons] at hn
    simp only [fieldLoop] at h
    split at h
    · rename_i v hv
      obtain ⟨h1, h2, h3⟩ := ih h hn.2
      refine ⟨h1, ?_, ?_⟩
      · intro n hnn
        simp only [List.map_cons, List.mem_cons, not_or] at hnn
        rw [h2 n hnn.2]
        exact GoMap.get?_set_ne (fun e => hnn.1 e.symm)
      · intro g r hg
        simp only [List.mem_cons, Prod.mk.injEq] at hg
        rcases hg with ⟨rfl, rfl⟩ | hg
        · refine ⟨some v, hv, ?_⟩
          rw [h2 _ hn.1]
          simp [GoMap.get?_set_self]
        · obtain ⟨o, ho, hgo⟩ := h3 g r hg
          refine ⟨o, ho, ?_⟩
          rw [hgo]
          have : f.name ≠ g.name := by
            intro e; apply hn.1; rw [e]
            exact List.mem_map.2 ⟨_, hg, rfl⟩
          rw [GoMap.get?_set_ne this]
    · rename_i hv
      obtain ⟨h1, h2, h3⟩ := ih h hn.2
      refine ⟨h1, ?_, ?_⟩
      · intro n hnn
        simp only [List.map_cons, List.mem_cons, not_or] at hnn
        exact h2 n hnn.2
      · intro g r hg
        simp only [List.mem_cons, Prod.mk.injEq] at hg
        rcases hg with ⟨rfl, rfl⟩ | hg
        · refine ⟨none, hv, ?_⟩
          rw [h2 _ hn.1]; simp
        · exact h3 g r hg
    · simp at h
    · simp at h
    · simp at h

theorem fieldLoop_cls {path} {om : List (Bytes × CVal)} (l : List (Fld × Raw)) {tgt t' : Inst} {e}
    (h : fieldLoop env ord el path om l tgt = .ret t' e) : t'.cls = tgt.cls := by
  induction l generalizing tgt with
  | nil => simp only [fieldLoop, Res.ret.injEq] at h; rw [← h.1]
  | cons x l ih =>
    obtain ⟨f, raw⟩ := x
    simp only [fieldLoop] at h
    split at h
    · have := ih h; simpa using this
    · exact ih h
    · simp only [Res.ret.injEq] at h; rw [← h.1]
    · simp at h
    · simp at h
end

theorem decode_cls {env ext fuel ref path tgt s dat t' e}
    (h : decode env ext fuel ref path tgt s dat = .ret t' e) : t'.cls = tgt.cls := by
  rw [decode_eq] at h
  unfold jsonUnmarshalStep at h
  split at h
  · unfold plainUnmarshal at h
    split at h <;> (simp only [Res.ret.injEq] at h; rw [← h.1])
  · split at h
    · simp at h
    · simp only at h
      split at h
      · simp at h
      · split at h
        · simp only [Res.ret.injEq] at h; rw [← h.1]
        · exact fieldLoop_cls _ h

theorem decode_none {env ext fuel ref path tgt s t'} :
    decode env ext fuel ref path tgt s none ≠ .ret t' false := by
  intro h
  rw [decode_eq] at h
  unfold jsonUnmarshalStep at h
  split at h
  · simp [plainUnmarshal] at h
  · split at h
    · simp at h
    · simp only [rawDecode] at h
      split at h <;> simp at h

/-- A successful call with a specification: the registry, the raw values and the value of
every field. -/
theorem decode_ok {env ext fuel ref path tgt s dat t'} (hs : s.fields ≠ [])
    (h : decode env ext fuel ref path tgt s dat = .ret t' false) :
    ∃ reg m, mergeReg env ext fuel ref tgt.cls = some reg ∧ membersOf dat = some m ∧
      t'.cls = tgt.cls ∧
      (∀ n, n ∉ (loopFields (env.struct tgt.cls).fields).map Fld.name →
        GoMap.get? t'.fields n = GoMap.get? tgt.fields n) ∧
      ∀ i f, (loopFields (env.struct tgt.cls).fields)[i]? = some f → ∃ raw o,
        (valuesOf ext (loopFields (env.struct tgt.cls).fields) i m).foldlM (rawSet ext f)
          (rawZero ext (rawKind env s.fields f) f) = some raw ∧
        fieldValue env ext.ord (element env ext reg (decode env ext fuel reg.toRef)) path s.fields f raw
          = .ok o ∧
        GoMap.get? t'.fields f.name = (o <|> GoMap.get? tgt.fields f.name) := by
  rw [decode_eq] at h
  unfold jsonUnmarshalStep at h
  rw [if_neg hs] at h
  split at h
  · simp at h
  · rename_i reg hreg
    simp only at h
    split at h
    · simp at h
    · rename_i hnd
      have hnd := Classical.not_not.1 (fun hc => hnd (Or.inl hc))
      split at h
      · simp at h
      · rename_i raws hraws
        obtain ⟨m, hm, hl, hget⟩ := rawDecode_get hraws
        have hmap : ((loopFields (env.struct tgt.cls).fields).zip raws).map (fun x => x.1.name)
            = (loopFields (env.struct tgt.cls).fields).map Fld.name := by
          rw [show (fun x : Fld × Raw => x.1.name) = Fld.name ∘ Prod.fst from rfl, ← List.map_map,
            List.map_fst_zip (by omega)]
        obtain ⟨h1, h2, h3⟩ := fieldLoop_ok _ h (by rw [hmap]; exact hnd)
        refine ⟨reg, m, hreg, hm, h1, ?_, ?_⟩
        · intro n hn; exact h2 n (by rw [hmap]; exact hn)
        · intro i f hf
          obtain ⟨raw, hr, hv⟩ := hget i f hf
          have hmem : (f, raw) ∈ (loopFields (env.struct tgt.cls).fields).zip raws := by
            apply List.mem_of_getElem? (i := i)
            rw [List.getElem?_zip_eq_some]; exact ⟨hf, hr⟩
          obtain ⟨o, ho, hgo⟩ := h3 f raw hmem
          exact ⟨raw, o, hv, ho, hgo⟩

theorem element_ok {env ext reg p s d i fuel}
    (h : element env ext reg (decode env ext fuel reg.toRef) p s d = .ok i) :
    ∃ c content fields, GoMap.get? reg s.name = some (.ptr c content) ∧
      decode env ext fuel reg.toRef p ⟨c, fresh env ext c⟩ s d = .ret ⟨c, fields⟩ false ∧ i = ⟨c, fields⟩ := by
  unfold element at h
  split at h
  · simp at h
  · simp at h
  · simp at h
  · rename_i c content hc
    split at h
    · rename_i i' hd
      simp only [Out.ok.injEq] at h
      subst h
      have := decode_cls hd
      obtain ⟨c', fl⟩ := i'
      simp only at this
      subst this
      exact ⟨c', content, fl, hc, hd, rfl⟩
    · simp at h
    · simp at h
    · simp at h

theorem store_ok {env t i v} (h : store env t i = .ok v) :
    assignable env t i.cls = true ∧ v = .ref i.cls i.fields := by
  unfold store at h
  split at h
  · rename_i ha; simp only [Out.ok.injEq] at h; exact ⟨ha, h.symm⟩
  · simp at h

theorem sliceLoop_ok {env path et} {el : List Bytes → Cls → Doc → Out Inst} {specs : List Cls} {first : Cls} {n : Nat} {js : List J} {vs : List Val}
    (h : sliceLoop env el path et specs first n js = .ok vs) :
    vs.length = js.length ∧ ∀ k j, js[k]? = some j → ∃ i v,
      el (path ++ [idxPath (n + k)]) ((specs[n + k]?).getD first) (some j) = .ok i ∧
      store env et i = .ok v ∧ vs[k]? = some v := by
  induction js generalizing n vs with
  | nil => simp only [sliceLoop, Out.ok.injEq] at h; subst h; simp
  | cons j js ih =>
    simp only [sliceLoop, Out.bind_ok, Out.ok.injEq] at h
    obtain ⟨i, hi, v, hv, vs', hvs, rfl⟩ := h
    obtain ⟨h1, h2⟩ := ih hvs
    refine ⟨by simp [h1], ?_⟩
    intro k j' hk
    cases k with
    | zero =>
      simp only [List.getElem?_cons_zero, Option.some.injEq] at hk
      subst hk
      exact ⟨i, v, by simpa using hi, hv, by simp⟩
    | succ k =>
      simp only [List.getElem?_cons_succ] at hk
      obtain ⟨i', v', a, c, d⟩ := h2 k j' hk
      refine ⟨i', v', ?_, c, by simpa using d⟩
      rw [show n + (k + 1) = n + 1 + k by omega]; exact a

/-! ## Sorted maps -/

/-- A strict linear order given by a test. -/
structure LinLt {κ : Type} (lt : κ → κ → Bool) : Prop where
  irrefl : ∀ x, lt x x = false
  trans : ∀ x y z, lt x y = true → lt y z = true → lt x z = true
  total : ∀ x y, x ≠ y → lt x y = true ∨ lt y x = true

theorem ltB_iff (x y : Bytes) : ltB x y = true ↔ x < y := by
  induction x generalizing y with
  | nil => cases y <;> simp [ltB]
  | cons a x ih =>
    cases y with
    | nil => simp [ltB]
    | cons c y =>
      simp only [ltB, Bool.or_eq_true, decide_eq_true_eq, Bool.and_eq_true, ih, List.cons_lt_cons_iff]

theorem u8_tri (x y : UInt8) (h : ¬ x < y) (h' : x ≠ y) : y < x := by
  have : x.toNat ≠ y.toNat := fun e => h' (UInt8.toNat_inj.1 e)
  simp only [UInt8.lt_iff_toNat_lt] at *
  omega

theorem ltB_lin : LinLt ltB where
  irrefl x := by
    induction x with
    | nil => rfl
    | cons a x ih =>
      have : ¬ a < a := by simp [UInt8.lt_iff_toNat_lt]
      simp [ltB, ih, this]
  trans x := by
    induction x with
    | nil =>
      intro y z h1 h2
      cases z with
      | nil => cases y <;> simp [ltB] at h2
      | cons c z => rfl
    | cons a x ih =>
      intro y z h1 h2
      cases y with
      | nil => simp [ltB] at h1
      | cons c y =>
        cases z with
        | nil => simp [ltB] at h2
        | cons d z =>
          simp only [ltB, Bool.or_eq_true, decide_eq_true_eq, Bool.and_eq_true] at *
          rcases h1 with h1 | ⟨rfl, h1⟩
          · rcases h2 with h2 | ⟨rfl, h2⟩
            · left; simp only [UInt8.lt_iff_toNat_lt] at *; omega
            · exact Or.inl h1
          · rcases h2 with h2 | ⟨rfl, h2⟩
            · exact Or.inl h2
            · exact Or.inr ⟨rfl, ih _ _ h1 h2⟩
  total x := by
    induction x with
    | nil => intro y h; cases y with
      | nil => exact absurd rfl h
      | cons c y => exact Or.inl rfl
    | cons a x ih =>
      intro y h
      cases y with
      | nil => exact Or.inr rfl
      | cons c y =>
        simp only [ltB, Bool.or_eq_true, decide_eq_true_eq, Bool.and_eq_true]
        by_cases hac : a < c
        · exact Or.inl (Or.inl hac)
        · by_cases hae : a = c
          · subst hae
            have : x ≠ y := fun e => h (by rw [e])
            rcases ih y this with h1 | h1
            · exact Or.inl (Or.inr ⟨rfl, h1⟩)
            · exact Or.inr (Or.inr ⟨rfl, h1⟩)
          · exact Or.inr (Or.inl (u8_tri _ _ hac hae))

theorem ltB2_lin : LinLt ltB2 where
  irrefl x := by simp [ltB2, ltB_lin.irrefl]
  trans x y z h1 h2 := by
    obtain ⟨x1, x2⟩ := x; obtain ⟨y1, y2⟩ := y; obtain ⟨z1, z2⟩ := z
    simp only [ltB2, Bool.or_eq_true, decide_eq_true_eq, Bool.and_eq_true] at *
    rcases h1 with h1 | ⟨rfl, h1⟩
    · rcases h2 with h2 | ⟨rfl, h2⟩
      · exact Or.inl (ltB_lin.trans _ _ _ h1 h2)
      · exact Or.inl h1
    · rcases h2 with h2 | ⟨rfl, h2⟩
      · exact Or.inl h2
      · exact Or.inr ⟨rfl, ltB_lin.trans _ _ _ h1 h2⟩
  total x y h := by
    obtain ⟨x1, x2⟩ := x; obtain ⟨y1, y2⟩ := y
    simp only [ltB2, Bool.or_eq_true, decide_eq_true_eq, Bool.and_eq_true] at *
    by_cases h1 : x1 = y1
    · subst h1
      have : x2 ≠ y2 := fun e => h (by rw [e])
      rcases ltB_lin.total _ _ this with h2 | h2
      · exact Or.inl (Or.inr ⟨rfl, h2⟩)
      · exact Or.inr (Or.inr ⟨rfl, h2⟩)
    · rcases ltB_lin.total _ _ h1 with h2 | h2
      · exact Or.inl (Or.inl h2)
      · exact Or.inr (Or.inl h2)

section sorted
variable {κ α : Type} [DecidableEq κ] {lt : κ → κ → Bool}

theorem get?_insertK (k : κ) (v : α) (m : List (κ × α)) (x : κ) :
    GoMap.get? (insertK lt k v m) x = if k = x then some v else GoMap.get? m x := by
  induction m with
  | nil => simp [insertK, GoMap.get?]
  | cons e m ih =>
    obtain ⟨k', v'⟩ := e
    simp only [insertK]
    split
    · rename_i h; subst h
      simp only [GoMap.get?]
      split <;> rfl
    · split
      · simp only [GoMap.get?]
      · rename_i h _
        simp only [GoMap.get?, ih]
        split
        · rename_i h1; subst h1; simp [h]
        · rfl

theorem insertK_comm (hl : LinLt lt) {k k' : κ} (h : k ≠ k') (v v' : α) (m : List (κ × α)) :
    insertK lt k v (insertK lt k' v' m) = insertK lt k' v' (insertK lt k v m) := by
  have asym : ∀ x y, lt x y = true → lt y x = false := by
    intro x y h1
    cases h2 : lt y x
    · rfl
    · have := hl.trans _ _ _ h1 h2; rw [hl.irrefl] at this; exact absurd this (by simp)
  induction m with
  | nil =>
    simp only [insertK, h, Ne.symm h, if_false]
    rcases hl.total _ _ h with h1 | h1
    · simp [h1, asym _ _ h1]
    · simp [h1, asym _ _ h1]
  | cons e m ih =>
    obtain ⟨c, w⟩ := e
    simp only [insertK]
    by_cases h1 : k = c
    · subst h1
      have h' : ¬ k' = k := fun e => h e.symm
      rcases hl.total _ _ h with h2 | h2
      · simp [insertK, h', h, h2, asym _ _ h2]
      · simp [insertK, h', h, h2, asym _ _ h2]
    · by_cases h2 : k' = c
      · subst h2
        rcases hl.total _ _ h with h3 | h3
        · simp [insertK, h1, h, Ne.symm h, h3, asym _ _ h3]
        · simp [insertK, h1, h, Ne.symm h, h3, asym _ _ h3]
      · rcases hl.total _ _ h1 with h3 | h3
        · rcases hl.total _ _ h2 with h4 | h4
          · rcases hl.total _ _ h with h5 | h5
            · simp [insertK, h1, h2, h, Ne.symm h, h3, h4, h5, asym _ _ h5]
            · simp [insertK, h1, h2, h, Ne.symm h, h3, h4, h5, asym _ _ h5]
          · have h5 := hl.trans _ _ _ h3 h4
            simp [insertK, h1, h2, h, Ne.symm h, h3, asym _ _ h4, h5, asym _ _ h5]
        · rcases hl.total _ _ h2 with h4 | h4
          · have h5 := hl.trans _ _ _ h4 h3
            simp [insertK, h1, h2, h, Ne.symm h, asym _ _ h3, h4, h5, asym _ _ h5]
          · simp [insertK, h1, h2, h, Ne.symm h, asym _ _ h3, asym _ _ h4, ih]
end sorted

/-! ## The map loops -/

theorem mapLoop_ok {env path kt et raw} {el : List Bytes → Cls → Doc → Out Inst} {specs : List (Bytes × Cls)} {first : Cls}
    (keys : List Bytes) {acc res : List (Bytes × Val)} (hn : keys.Nodup)
    (h : mapLoop env el path kt et specs first raw keys acc = .ok res) :
    (keys ≠ [] → kt = .str) ∧
    (∀ x, x ∉ keys → GoMap.get? res x = GoMap.get? acc x) ∧
    ∀ x ∈ keys, ∃ i v, el (path ++ [x]) ((GoMap.get? specs x).getD first) (GoMap.get? raw x) = .ok i ∧
      store env et i = .ok v ∧ GoMap.get? res x = some v := by
  induction keys generalizing acc with
  | nil => simp only [mapLoop, Out.ok.injEq] at h; subst h; simp
  | cons k ks ih =>
    simp only [mapLoop, Out.bind_ok] at h
    obtain ⟨i, hi, v, hv, h⟩ := h
    split at h
    · simp at h
    · rename_i hkt
      simp only [List.nodup_cons] at hn
      obtain ⟨_, h1, h2⟩ := ih hn.2 h
      refine ⟨fun _ => Classical.not_not.1 hkt, ?_, ?_⟩
      · intro x hx
        simp only [List.mem_cons, not_or] at hx
        rw [h1 x hx.2, get?_insertK, if_neg (fun e => hx.1 e.symm)]
      · intro x hx
        simp only [List.mem_cons] at hx
        rcases hx with rfl | hx
        · exact ⟨i, v, hi, hv, by rw [h1 _ hn.1, get?_insertK]; simp⟩
        · exact h2 x hx

theorem map2Inner_ok {env path kt et raw key0} {el : List Bytes → Cls → Doc → Out Inst} {inner : List (Bytes × Cls)} {first : Cls}
    (keys : List Bytes) {acc res : List ((Bytes × Bytes) × Val)} (hn : keys.Nodup)
    (h : map2Inner env el path kt et inner first key0 raw keys acc = .ok res) :
    (∀ x, (x.1 = key0 → x.2 ∉ keys) → GoMap.get? res x = GoMap.get? acc x) ∧
    ∀ x ∈ keys, ∃ i v, el (path ++ [x]) ((GoMap.get? inner x).getD first) (GoMap.get? raw x) = .ok i ∧
      store env et i = .ok v ∧ GoMap.get? res (key0, x) = some v := by
  induction keys generalizing acc with
  | nil => simp only [map2Inner, Out.ok.injEq] at h; subst h; simp
  | cons k ks ih =>
    simp only [map2Inner, Out.bind_ok] at h
    obtain ⟨i, hi, v, hv, h⟩ := h
    split at h
    · simp at h
    · simp only [List.nodup_cons] at hn
      obtain ⟨h1, h2⟩ := ih hn.2 h
      refine ⟨?_, ?_⟩
      · intro x hx
        have hx' : x.1 = key0 → x.2 ∉ ks := fun e he => hx e (List.mem_cons_of_mem _ he)
        rw [h1 x hx', get?_insertK, if_neg]
        rintro rfl
        exact hx rfl (by simp)
      · intro x hx
        simp only [List.mem_cons] at hx
        rcases hx with rfl | hx
        · refine ⟨i, v, hi, hv, ?_⟩
          rw [h1 _ (fun _ => hn.1), get?_insertK]; simp
        · exact h2 x hx

theorem map2Outer_ok {env ord path kt et} {raw : GoMap Bytes (GoMap Bytes J)}
    {el : List Bytes → Cls → Doc → Out Inst}
    {specs : List (Bytes × List (Bytes × Cls))} {firstMap : List (Bytes × Cls)} {first : Cls}
    (hord : ∀ p ks, (ord p ks).Perm ks) (hraw : ∀ x m, GoMap.get? raw x = some m → m.keys.Nodup)
    (keys : List Bytes) {acc res : List ((Bytes × Bytes) × Val)} (hn : keys.Nodup)
    (h : map2Outer env ord el path kt et specs firstMap first raw keys acc = .ok res) :
    (∀ x, (x.1 ∈ keys → x.2 ∉ ((GoMap.get? raw x.1).getD []).keys) →
      GoMap.get? res x = GoMap.get? acc x) ∧
    ∀ x ∈ keys, ∀ y ∈ ((GoMap.get? raw x).getD []).keys, ∃ i v,
      el (path ++ [x] ++ [y]) ((GoMap.get? ((GoMap.get? specs x).getD firstMap) y).getD first)
        (GoMap.get? ((GoMap.get? raw x).getD []) y) = .ok i ∧
      store env et i = .ok v ∧ GoMap.get? res (x, y) = some v := by
  have hnd : ∀ x, ((GoMap.get? raw x).getD []).keys.Nodup := by
    intro x
    cases hx : GoMap.get? raw x with
    | none => simp [GoMap.keys]
    | some m => exact hraw x m hx
  induction keys generalizing acc with
  | nil => simp only [map2Outer, Out.ok.injEq] at h; subst h; simp
  | cons k ks ih =>
    simp only [map2Outer, Out.bind_ok] at h
    obtain ⟨acc1, h0, h⟩ := h
    simp only [List.nodup_cons] at hn
    have hp := hord (path ++ [k]) ((GoMap.get? raw k).getD []).keys
    obtain ⟨a1, a2⟩ := map2Inner_ok _ (hp.nodup_iff.2 (hnd k)) h0
    obtain ⟨h1, h2⟩ := ih hn.2 h
    refine ⟨?_, ?_⟩
    · intro x hx
      rw [h1 x (fun he => hx (List.mem_cons_of_mem _ he)), a1 x]
      intro e hm
      rw [hp.mem_iff] at hm
      exact hx (by rw [e]; simp) (by rw [e]; exact hm)
    · intro x hx y hy
      simp only [List.mem_cons] at hx
      rcases hx with rfl | hx
      · obtain ⟨i, v, e1, e2, e3⟩ := a2 y (hp.mem_iff.2 hy)
        refine ⟨i, v, e1, e2, ?_⟩
        rw [h1 (x, y) (fun he => absurd he hn.1)]; exact e3
      · exact h2 x hx y hy

/-! ## Members of JSON objects -/

theorem lastOf_cons {α : Type} (e : Bytes × α) (o : List (Bytes × α)) (key : Bytes) :
    lastOf (e :: o) key = (lastOf o key <|> if e.1 = key then some e.2 else none) := by
  unfold lastOf
  simp only [List.filter_cons]
  by_cases h : e.1 = key
  · simp only [h, decide_true, if_true, List.getLast?_cons]
    cases (o.filter fun e => decide (e.1 = key)).getLast? <;> simp
  · simp [h]

theorem mergeMembers_get {α : Type} (o : List (Bytes × α)) (m : GoMap Bytes α) (key : Bytes) :
    GoMap.get? (mergeMembers m o) key = (lastOf o key <|> GoMap.get? m key) := by
  induction o generalizing m with
  | nil => simp [mergeMembers, lastOf]
  | cons e o ih =>
    have : mergeMembers m (e :: o) = mergeMembers (GoMap.set m e.1 e.2) o := rfl
    rw [this, ih, lastOf_cons, GoMap.get?_set]
    cases lastOf o key <;> simp
    split <;> simp

theorem mergeMembers_nodup {α : Type} (o : List (Bytes × α)) {m : GoMap Bytes α} (h : m.keys.Nodup) :
    (mergeMembers m o).keys.Nodup := by
  induction o generalizing m with
  | nil => exact h
  | cons e o ih => exact ih (GoMap.nodup_set h)

theorem lastOf_isSome {α : Type} {o : List (Bytes × α)} {key : Bytes} :
    (lastOf o key).isSome ↔ key ∈ o.map Prod.fst := by
  induction o with
  | nil => simp [lastOf]
  | cons e o ih =>
    rw [lastOf_cons]
    simp only [List.map_cons, List.mem_cons, ← ih]
    by_cases h : e.1 = key
    · cases lastOf o key <;> simp [h]
    · have : ¬ key = e.1 := fun e => h e.symm
      cases lastOf o key <;> simp [h, this]

theorem getFirst_least {α : Type} {m : List (Bytes × α)} {v : α} (h : getFirst m = some v) :
    ∃ k, (k, v) ∈ m ∧ ∀ e ∈ m, k ≤ e.1 := by
  have key : ∀ (m : List (Bytes × α)) (e : Bytes × α),
      (∀ x ∈ e :: m, ltB x.1 (m.foldl (fun best e => if ltB e.1 best.1 then e else best) e).1 = false) := by
    intro m
    induction m with
    | nil => intro e x hx; simp at hx; subst hx; exact ltB_lin.irrefl _
    | cons a m ih =>
      intro e x hx
      simp only [List.foldl_cons]
      have hb : ∀ y, y = a ∨ y = e → ltB y.1 (if ltB a.1 e.1 = true then a else e).1 = false := by
        intro y hy
        cases hc : ltB a.1 e.1
        · rcases hy with rfl | rfl
          · simpa using hc
          · simpa using ltB_lin.irrefl _
        · rcases hy with rfl | rfl
          · simpa using ltB_lin.irrefl _
          · simp only [if_true]
            cases hc2 : ltB y.1 a.1
            · rfl
            · have := ltB_lin.trans _ _ _ hc hc2
              rw [ltB_lin.irrefl] at this; exact absurd this (by simp)
      have hm := ih (if ltB a.1 e.1 = true then a else e)
      have hbest := hm _ (List.mem_cons_self)
      generalize hB : List.foldl (fun best e => if ltB e.1 best.1 = true then e else best)
        (if ltB a.1 e.1 = true then a else e) m = B at *
      have tr : ∀ y, y = a ∨ y = e → ltB y.1 B.1 = false := by
        intro y hy
        cases hc : ltB y.1 B.1
        · rfl
        · generalize hS : (if ltB a.1 e.1 = true then a else e) = S at *
          by_cases hyS : y.1 = S.1
          · rw [hyS, hbest] at hc; exact absurd hc (by simp)
          · rcases ltB_lin.total _ _ hyS with h1 | h1
            · rw [hb y hy] at h1; exact absurd h1 (by simp)
            · have := ltB_lin.trans _ _ _ h1 hc
              rw [hbest] at this; exact absurd this (by simp)
      simp only [List.mem_cons] at hx
      rcases hx with rfl | rfl | hx
      · exact tr _ (Or.inr rfl)
      · exact tr _ (Or.inl rfl)
      · exact hm x (List.mem_cons_of_mem _ hx)
  cases m with
  | nil => simp [getFirst] at h
  | cons e m =>
    obtain ⟨k, w⟩ := e
    simp only [getFirst, Option.some.injEq] at h
    have hmem := foldl_first_mem m (k, w)
    have hk := key m (k, w)
    generalize hB : List.foldl (fun best e => if ltB e.1 best.1 = true then e else best) (k, w) m = B at *
    subst h
    refine ⟨B.1, hmem, fun e he => ?_⟩
    rw [← List.not_lt]
    intro hlt
    rw [← ltB_iff, hk e he] at hlt
    exact absurd hlt (by simp)

theorem classFor_getD {α : Type} {specs : List (Bytes × α)} {first : α} (hf : getFirst specs = some first)
    (key : Bytes) : ClassFor specs key ((GoMap.get? specs key).getD first) := by
  unfold ClassFor
  cases h : GoMap.get? specs key with
  | some v => simp
  | none =>
    right
    have h1 := GoMap.get?_eq_none.1 h
    exact ⟨h1, getFirst_least hf⟩

end Verif.Det
