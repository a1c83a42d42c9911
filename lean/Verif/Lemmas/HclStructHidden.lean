import Verif.Lemmas.HclStructMarshal
set_option linter.unusedSimpArgs false
/-! Hidden fields when structs are written. -/

namespace Verif.HclS
open Hcl (indent joinB)
open Det (KeyTy)

section
variable {env : Env} {pe : PExt}

theorem agrees_isZero {v v' : Val} (h : v.agrees env pe v') : v.isZero = v'.isZero := by
  cases v with
  | str s => rw [show v' = .str s from h]
  | leaf n => rw [show v' = .leaf n from h]
  | ref c fs => obtain ⟨fs', rfl, _⟩ := h; rfl
  | inst c fs =>
    obtain ⟨fs', rfl, h, _⟩ := h
    exact Bool.eq_iff_iff.2 (allZero_iff.trans (h.trans allZero_iff.symm))
  | slice l => obtain ⟨l', rfl, _⟩ := h; rfl
  | map m => obtain ⟨m', rfl, _⟩ := h; rfl
  | map2 m => obtain ⟨m', rfl, _⟩ := h; rfl

theorem agreeF_get {vis : Bytes → Prop} {fs fs' : Fields} (h : agreeF env pe vis fs fs') (k : Bytes) (hk : vis k) :
    (GoMap.get? fs k = none ∧ GoMap.get? fs' k = none) ∨
    ∃ v v', GoMap.get? fs k = some v ∧ GoMap.get? fs' k = some v' ∧ v.agrees env pe v' := by
  induction fs generalizing fs' with
  | nil => rw [show fs' = [] from h]; exact .inl ⟨rfl, rfl⟩
  | cons x r ih =>
    obtain ⟨k0, v⟩ := x
    obtain ⟨v', r', rfl, hv, hr⟩ := h
    by_cases e : k0 = k
    · subst e
      exact .inr ⟨v, v', by simp [GoMap.get?], by simp [GoMap.get?], hv hk⟩
    · rcases ih hr with ⟨h1, h2⟩ | ⟨w, w', h1, h2, h3⟩
      · exact .inl ⟨by simpa [GoMap.get?, e] using h1, by simpa [GoMap.get?, e] using h2⟩
      · exact .inr ⟨w, w', by simpa [GoMap.get?, e] using h1, by simpa [GoMap.get?, e] using h2, h3⟩

theorem agreeF_keys {vis : Bytes → Prop} {fs fs' : Fields} (h : agreeF env pe vis fs fs') : GoMap.keys fs' = GoMap.keys fs := by
  induction fs generalizing fs' with
  | nil => rw [show fs' = [] from h]
  | cons x r ih =>
    obtain ⟨v', r', rfl, _, hr⟩ := h
    simpa [GoMap.keys] using ih hr

theorem agreeP_get {m m' : List ((Bytes × Bytes) × Val)} (h : agreeP env pe m m') (k : Bytes × Bytes) :
    (GoMap.get? m k = none ∧ GoMap.get? m' k = none) ∨
    ∃ v v', GoMap.get? m k = some v ∧ GoMap.get? m' k = some v' ∧ v.agrees env pe v' := by
  induction m generalizing m' with
  | nil => rw [show m' = [] from h]; exact .inl ⟨rfl, rfl⟩
  | cons x r ih =>
    obtain ⟨k0, v⟩ := x
    obtain ⟨v', r', rfl, hv, hr⟩ := h
    by_cases e : k0 = k
    · subst e
      exact .inr ⟨v, v', by simp [GoMap.get?], by simp [GoMap.get?], hv⟩
    · rcases ih hr with ⟨h1, h2⟩ | ⟨w, w', h1, h2, h3⟩
      · exact .inl ⟨by simpa [GoMap.get?, e] using h1, by simpa [GoMap.get?, e] using h2⟩
      · exact .inr ⟨w, w', by simpa [GoMap.get?, e] using h1, by simpa [GoMap.get?, e] using h2, h3⟩

theorem agreeP_keys {m m' : List ((Bytes × Bytes) × Val)} (h : agreeP env pe m m') : GoMap.keys m' = GoMap.keys m := by
  induction m generalizing m' with
  | nil => rw [show m' = [] from h]
  | cons x r ih =>
    obtain ⟨v', r', rfl, _, hr⟩ := h
    simpa [GoMap.keys] using ih hr

theorem agreeL_length {l l' : List Val} (h : agreeL env pe l l') : l'.length = l.length := by
  induction l generalizing l' with
  | nil => rw [show l' = [] from h]
  | cons x r ih =>
    obtain ⟨v', r', rfl, _, hr⟩ := h
    simp [ih hr]

theorem agrees_len {v v' : Val} (h : v.agrees env pe v') : v'.len = v.len := by
  cases v with
  | str s => rw [show v' = .str s from h]
  | leaf n => rw [show v' = .leaf n from h]
  | ref c fs => obtain ⟨fs', rfl, _⟩ := h; rfl
  | inst c fs => obtain ⟨fs', rfl, h, _⟩ := h; rfl
  | slice l => obtain ⟨l', rfl, h⟩ := h; exact agreeL_length h
  | map m =>
    obtain ⟨m', rfl, h⟩ := h
    simpa [GoMap.keys, Val.len] using congrArg List.length (agreeF_keys h)
  | map2 m =>
    obtain ⟨m', rfl, h⟩ := h
    simpa [GoMap.keys, Val.len] using congrArg List.length (agreeP_keys h)

theorem agrees_isLoop {e : Ty} {v v' : Val} (h : v.agrees env pe v') : isLoop e v' = isLoop e v := by
  cases v with
  | str s => rw [show v' = .str s from h]
  | leaf n => rw [show v' = .leaf n from h]
  | ref c fs => obtain ⟨fs', rfl, _⟩ := h; rfl
  | inst c fs => obtain ⟨fs', rfl, h, _⟩ := h; rfl
  | slice l => obtain ⟨l', rfl, h⟩ := h; rfl
  | map m => obtain ⟨m', rfl, h⟩ := h; rfl
  | map2 m => obtain ⟨m', rfl, h⟩ := h; rfl

/-- Lists of fields with values that agree. -/
def AgreePs (env : Env) (pe : PExt) (ps ps' : List PFld) : Prop :=
  List.Forall₂ (fun p p' => p.fld = p'.fld ∧ p.out = p'.out ∧ p.val.agrees env pe p'.val) ps ps'

theorem AgreePs.append {a a' c c' : List PFld} (h : AgreePs env pe a a') (h' : AgreePs env pe c c') : AgreePs env pe (a ++ c) (a' ++ c') := by
  induction h with
  | nil => exact h'
  | cons h _ ih => exact .cons h ih

/-- Results of `getFields` that agree. -/
def AgreeR (env : Env) (pe : PExt) : Except Fail (List PFld) → Except Fail (List PFld) → Prop
  | .ok ps, .ok ps' => AgreePs env pe ps ps'
  | .error x, .error x' => x = x'
  | _, _ => False

theorem AgreeR.map {r r' : Except Fail (List PFld)} {a a' : List PFld} (h : AgreeR env pe r r') (ha : AgreePs env pe a a') :
    AgreeR env pe (r.map fun x => a ++ x) (r'.map fun x => a' ++ x) := by
  cases r <;> cases r'
  · exact h
  · exact h.elim
  · exact h.elim
  · exact ha.append h

theorem passOf_agrees {ty : Ty} {v v' : Val} (h : v.agrees env pe v') : passOf ty v = passOf ty v' := by
  unfold passOf
  rw [agrees_len h, agrees_isZero h]

theorem fieldEntry_agrees {f : Fld} {v v' : Val} (h : v.agrees env pe v') : AgreePs env pe (fieldEntry f v) (fieldEntry f v') := by
  unfold fieldEntry
  rw [← agrees_isZero h, ← passOf_agrees h]
  split
  · exact .nil
  · split
    · exact .nil
    · exact .cons ⟨rfl, rfl, h⟩ .nil

theorem fieldList_agrees {fs fs' : Fields} {vis : Bytes → Prop} (hf : agreeF env pe vis fs fs')
    {deep deep' : List Fld → Except Fail (List PFld)} {deepW : List Fld → List Fld}
    (hdeep : ∀ L, (∀ f ∈ deepW L, f.upper = true → f.tag ≠ b "-" → vis f.name) → AgreeR env pe (deep L) (deep' L)) : ∀ {L},
    (∀ f ∈ L.flatMap (written1 env pe deepW), f.upper = true → f.tag ≠ b "-" → vis f.name) →
    AgreeR env pe (fieldList env pe fs deep L) (fieldList env pe fs' deep' L)
  | [], _ => .nil
  | f :: L, hv => by
    have ih := fieldList_agrees hf hdeep (L := L) fun g hg => hv g (by rw [List.flatMap_cons]; exact List.mem_append_right _ hg)
    have hv1 : ∀ g ∈ written1 env pe deepW f, g.upper = true → g.tag ≠ b "-" → vis g.name :=
      fun g hg => hv g (by rw [List.flatMap_cons]; exact List.mem_append_left _ hg)
    rw [fieldList, fieldList]
    split
    · exact ih
    · rename_i hu
      have hu : f.upper = true := by simpa using hu
      split
      · exact ih
      · rename_i ht
        split
        · rename_i ha
          split
          · split
            · rfl
            · exact ih
          · rename_i c hty
            have := hdeep (env.struct c).fields (by
              rw [written1, if_pos ha, hty] at hv1
              simpa only [hu, if_true] using hv1)
            cases h1 : deep (env.struct c).fields with
            | error x =>
              cases h2 : deep' (env.struct c).fields with
              | error x' => rw [h1, h2] at this; exact this
              | ok r' => rw [h1, h2] at this; exact this.elim
            | ok r =>
              cases h2 : deep' (env.struct c).fields with
              | error x' => rw [h1, h2] at this; exact this.elim
              | ok r' => rw [h1, h2] at this; exact ih.map this
          · rfl
          · exact ih
        · rename_i ha
          have hvis : vis f.name := hv1 f (by rw [written1, if_neg ha]; simp) hu fun e => ht (.inl e)
          rcases agreeF_get hf f.name hvis with ⟨h1, h2⟩ | ⟨v, v', h1, h2, h3⟩
          · rw [h1, h2]; rfl
          · rw [h1, h2]; exact ih.map (fieldEntry_agrees h3)

theorem written_succ (n : Nat) (L : List Fld) : written env pe (n + 1) L = L.flatMap (written1 env pe (written env pe n)) := rfl

theorem getFields_agrees {fs fs' : Fields} {vis : Bytes → Prop} (hf : agreeF env pe vis fs fs') : ∀ (n : Nat) {L},
    (∀ f ∈ written env pe n L, f.upper = true → f.tag ≠ b "-" → vis f.name) →
    AgreeR env pe (getFields env pe fs n L) (getFields env pe fs' n L)
  | 0, L, hv => fieldList_agrees hf (deep := fun _ => .error .hang) (deep' := fun _ => .error .hang) (deepW := fun L => []) (fun _ _ => rfl) (by
      intro f hm
      obtain ⟨g, hg, hm⟩ := List.mem_flatMap.1 hm
      have : f = g := by
        unfold written1 at hm
        split at hm
        · split at hm
          · split at hm <;> cases hm
          · exact List.mem_singleton.1 hm
        · exact List.mem_singleton.1 hm
      exact hv f (by rw [this]; exact hg))
  | n + 1, L, hv => fieldList_agrees hf (deepW := written env pe n) (fun _ h => getFields_agrees hf n h) hv

/-! ## The text -/

variable {rec rec' : PRec} (hb : Blind env pe) {d d' : Nat}
  (hrec : ∀ path level keys addr c fs fs', depthF fs < d → depthF fs' < d' → agreeF env pe (Visible env pe c) fs fs' →
    rec path level keys addr c fs = rec' path level keys addr c fs')
include hb hrec

theorem levelText_agrees {path level ty} {v v' : Val} (h : v.agrees env pe v') (hd : v.depth ≤ d) (hd' : v'.depth ≤ d') :
    levelText pe rec path level ty v = levelText pe rec' path level ty v' := by
  unfold levelText
  rw [← agrees_isZero h]
  have he := (hb v v' h).1
  cases v with
  | str s => rw [show v' = .str s from h]
  | leaf n => rw [show v' = .leaf n from h]
  | ref c fs =>
    obtain ⟨fs', rfl, h⟩ := h
    simp only [Val.depth] at hd hd'
    simp only [hrec _ _ _ _ _ fs fs' (by omega) (by omega) h]
  | inst c fs =>
    obtain ⟨fs', rfl, _, h⟩ := h
    simp only [Val.depth] at hd hd'
    simp only [hrec _ _ _ _ _ fs fs' (by omega) (by omega) h]
  | slice l => obtain ⟨l', rfl, h⟩ := h; simp only [he]; cases ty <;> rfl
  | map m => obtain ⟨m', rfl, h⟩ := h; simp only [he]; cases ty <;> rfl
  | map2 m => obtain ⟨m', rfl, h⟩ := h; simp only [he]; cases ty <;> rfl

theorem sliceOuts_agrees {path level f ety} {l l' : List Val} (h : agreeL env pe l l') (hd : depthL l ≤ d) (hd' : depthL l' ≤ d') :
    sliceOuts pe rec path level f ety l = sliceOuts pe rec' path level f ety l' := by
  induction l generalizing l' with
  | nil => rw [show l' = [] from h]; rfl
  | cons v l ih =>
    obtain ⟨v', r', rfl, hv, hr⟩ := h
    simp only [depthL] at hd hd'
    simp only [sliceOuts, agreeL_length hr, levelText_agrees hb hrec hv (by omega) (by omega), ih hr (by omega) (by omega)]

omit hb in
theorem elemText_agrees {path level keys ety} {v v' : Val} (h : v.agrees env pe v') (hd : v.depth ≤ d) (hd' : v'.depth ≤ d') :
    elemText env pe rec path level keys ety v = elemText env pe rec' path level keys ety v' := by
  unfold elemText
  cases v with
  | str s => rw [show v' = .str s from h]
  | leaf n =>
    rw [show v' = .leaf n from h]
    cases n with
    | zero => rfl
    | succ n => rfl
  | ref c fs =>
    obtain ⟨fs', rfl, h⟩ := h
    simp only [Val.depth] at hd hd'
    simp only [hrec _ _ _ _ _ fs fs' (by omega) (by omega) h]
  | inst c fs =>
    obtain ⟨fs', rfl, _, h⟩ := h
    simp only [Val.depth] at hd hd'
    simp only [hrec _ _ _ _ _ fs fs' (by omega) (by omega) h]
  | slice l => obtain ⟨l', rfl, h⟩ := h; rfl
  | map m => obtain ⟨m', rfl, h⟩ := h; rfl
  | map2 m => obtain ⟨m', rfl, h⟩ := h; rfl

omit hb in
theorem mapOuts_agrees {κ : Type} [DecidableEq κ] {path level f ety} {labelsOf : κ → List Bytes} {m m' : List (κ × Val)}
    (h : ∀ k, (GoMap.get? m k = none ∧ GoMap.get? m' k = none) ∨
      ∃ v v', GoMap.get? m k = some v ∧ GoMap.get? m' k = some v' ∧ v.agrees env pe v' ∧ v.depth ≤ d ∧ v'.depth ≤ d')
    (ks : List κ) :
    mapOuts env pe rec path level f ety labelsOf m ks = mapOuts env pe rec' path level f ety labelsOf m' ks := by
  induction ks with
  | nil => rfl
  | cons k ks ih =>
    simp only [mapOuts, ih]
    rcases h k with ⟨h1, h2⟩ | ⟨v, v', h1, h2, h3, h4, h5⟩
    · rw [h1, h2]
    · rw [h1, h2]
      simp only [elemText_agrees hrec h3 h4 h5]

omit hb hrec in
theorem depthF_get {m : Fields} {k v} (hg : GoMap.get? m k = some v) : v.depth ≤ depthF m := by
  have hm := GoMap.get?_mem hg
  clear hg
  induction m with
  | nil => cases hm
  | cons x m ih =>
    obtain ⟨k', v'⟩ := x
    rw [depthF]
    rcases List.mem_cons.1 hm with e | hm
    · cases e; omega
    · have := ih hm; omega

omit hb hrec in
theorem depthP_get {m : List ((Bytes × Bytes) × Val)} {k v} (hg : GoMap.get? m k = some v) : v.depth ≤ depthP m := by
  have hm := GoMap.get?_mem hg
  clear hg
  induction m with
  | nil => cases hm
  | cons x m ih =>
    obtain ⟨k', v'⟩ := x
    rw [depthP]
    rcases List.mem_cons.1 hm with e | hm
    · cases e; omega
    · have := ih hm; omega

theorem outlier_agrees {path level addr f} {v v' : Val} (h : v.agrees env pe v') (hd : v.depth ≤ d) (hd' : v'.depth ≤ d') :
    outlier env pe rec path level addr f v = outlier env pe rec' path level addr f v' := by
  have he := (hb v v' h).1
  have hl : ∀ {path level ty}, levelText pe rec path level ty v = levelText pe rec' path level ty v' := levelText_agrees hb hrec h hd hd'
  unfold outlier
  split
  · rw [hl]
  · rw [hl]
  · rw [hl]
  · cases v with
    | inst c fs =>
      obtain ⟨fs', rfl, _, h⟩ := h
      simp only [Val.depth] at hd hd'
      simp only [hl, hrec _ _ _ _ _ fs fs' (by omega) (by omega) h]
    | str s => rw [show v' = .str s from h]
    | leaf n => rw [show v' = .leaf n from h]
    | ref c fs => obtain ⟨fs', rfl, _⟩ := h; rfl
    | slice l => obtain ⟨l', rfl, h⟩ := h; rfl
    | map m => obtain ⟨m', rfl, h⟩ := h; rfl
    | map2 m => obtain ⟨m', rfl, h⟩ := h; rfl
  · cases v with
    | slice l =>
      obtain ⟨l', rfl, h⟩ := h
      cases l with
      | nil => rw [show l' = [] from h]
      | cons x l =>
        have hs := fun path level f ety => sliceOuts_agrees (path := path) (level := level) (f := f) (ety := ety) hb hrec h hd hd'
        obtain ⟨x', r', rfl, hx, hr⟩ := h
        simp only [agrees_isLoop hx, hs, he]
    | inst c fs => obtain ⟨fs', rfl, _, h⟩ := h; rfl
    | str s => rw [show v' = .str s from h]
    | leaf n => rw [show v' = .leaf n from h]
    | ref c fs => obtain ⟨fs', rfl, _⟩ := h; rfl
    | map m => obtain ⟨m', rfl, h⟩ := h; rfl
    | map2 m => obtain ⟨m', rfl, h⟩ := h; rfl
  · rename_i e _
    cases v with
    | map m =>
      obtain ⟨m', rfl, h⟩ := h
      have hk := agreeF_keys h
      have hfirst : ∀ l : List Bytes, isLoop e ((l.head?.bind (GoMap.get? m')).getD (.leaf 0)) = isLoop e ((l.head?.bind (GoMap.get? m)).getD (.leaf 0)) := by
        intro l
        cases l with
        | nil => rfl
        | cons k l =>
          rcases agreeF_get h k trivial with ⟨h1, h2⟩ | ⟨v, v', h1, h2, h3⟩
          · simp [h1, h2]
          · simpa [h1, h2] using agrees_isLoop h3
      have hs := fun path level f ety (labelsOf : Bytes → List Bytes) ks => mapOuts_agrees (path := path) (level := level) (f := f) (ety := ety) (labelsOf := labelsOf) hrec
        (m := m) (m' := m') (fun k => (agreeF_get h k trivial).imp_right fun ⟨v, v', h1, h2, h3⟩ =>
          ⟨v, v', h1, h2, h3, Nat.le_trans (depthF_get h1) hd, Nat.le_trans (depthF_get h2) hd'⟩) ks
      cases m with
      | nil => rw [show m' = [] from h]
      | cons x m =>
        obtain ⟨v', r', rfl, _⟩ := h
        simp only [hk, hfirst, he, hs]
    | map2 m =>
      obtain ⟨m', rfl, h⟩ := h
      have hk := agreeP_keys h
      have hfirst : ∀ l : List (Bytes × Bytes), isLoop e ((l.head?.bind (GoMap.get? m')).getD (.leaf 0)) = isLoop e ((l.head?.bind (GoMap.get? m)).getD (.leaf 0)) := by
        intro l
        cases l with
        | nil => rfl
        | cons k l =>
          rcases agreeP_get h k with ⟨h1, h2⟩ | ⟨v, v', h1, h2, h3⟩
          · simp [h1, h2]
          · simpa [h1, h2] using agrees_isLoop h3
      have hs := fun path level f ety (labelsOf : Bytes × Bytes → List Bytes) ks => mapOuts_agrees (path := path) (level := level) (f := f) (ety := ety) (labelsOf := labelsOf) hrec
        (m := m) (m' := m') (fun k => (agreeP_get h k).imp_right fun ⟨v, v', h1, h2, h3⟩ =>
          ⟨v, v', h1, h2, h3, Nat.le_trans (depthP_get h1) hd, Nat.le_trans (depthP_get h2) hd'⟩) ks
      cases m with
      | nil => rw [show m' = [] from h]
      | cons x m =>
        obtain ⟨v', r', rfl, _⟩ := h
        simp only [hk, hfirst, he, hs]
    | inst c fs => obtain ⟨fs', rfl, _, h⟩ := h; rfl
    | str s => rw [show v' = .str s from h]
    | leaf n => rw [show v' = .leaf n from h]
    | ref c fs => obtain ⟨fs', rfl, _⟩ := h; rfl
    | slice l => obtain ⟨l', rfl, h⟩ := h; rfl
  · rfl

theorem collect_agrees {path level addr keys} {ps ps' : List PFld} (h : AgreePs env pe ps ps') (hd : ∀ p ∈ ps, p.val.depth ≤ d)
    (hd' : ∀ p ∈ ps', p.val.depth ≤ d') :
    collect env pe rec path level addr keys ps = collect env pe rec' path level addr keys ps' := by
  induction h with
  | nil => rfl
  | @cons p p' ps ps' hp _ ih =>
    have ih := ih (fun q hq => hd q (by simp [hq])) (fun q hq => hd' q (by simp [hq]))
    obtain ⟨f, v, o⟩ := p
    obtain ⟨f', v', o'⟩ := p'
    obtain ⟨e1, e2, ha⟩ := hp
    simp only at e1 e2 ha
    subst e1 e2
    have := outlier_agrees (path := path) (level := level) (addr := addr) (f := f) hb hrec ha (hd ⟨f, v, o⟩ (by simp)) (hd' ⟨f, v', o⟩ (by simp))
    simp only [collect, this, ih]
    clear this ih hd hd'
    cases v with
    | str s => rw [show v' = .str s from ha]
    | leaf n => rw [show v' = .leaf n from ha]
    | ref c fs => obtain ⟨fs', rfl, _⟩ := ha; cases f.ty <;> rfl
    | inst c fs => obtain ⟨fs', rfl, _, _⟩ := ha; cases f.ty <;> rfl
    | slice l => obtain ⟨l', rfl, _⟩ := ha; cases f.ty <;> rfl
    | map m => obtain ⟨m', rfl, _⟩ := ha; cases f.ty <;> rfl
    | map2 m => obtain ⟨m', rfl, _⟩ := ha; cases f.ty <;> rfl

end

section
variable {env : Env} {pe : PExt}

theorem plainOf_agrees {ps ps' : List PFld} (h : AgreePs env pe ps ps') : AgreePs env pe (plainOf ps) (plainOf ps') := by
  induction h with
  | nil => exact .nil
  | @cons p p' ps ps' hp _ ih =>
    unfold plainOf at ih ⊢
    rw [List.filter_cons, List.filter_cons, ← hp.1, ← hp.2.1]
    split
    · exact .cons hp ih
    · exact ih

theorem agreePs_any {ps ps' : List PFld} (h : AgreePs env pe ps ps') (q : Fld → Bool) : ps'.any (fun p => q p.fld) = ps.any fun p => q p.fld := by
  induction h with
  | nil => rfl
  | cons hp _ ih => simp only [List.any_cons, ih, hp.1]

theorem agreePs_names {ps ps' : List PFld} (h : AgreePs env pe ps ps') :
    (ps'.filter fun p => !p.out).map (fun p => p.fld.name) = (ps.filter fun p => !p.out).map fun p => p.fld.name := by
  induction h with
  | nil => rfl
  | @cons p p' ps ps' hp _ ih =>
    rw [List.filter_cons, List.filter_cons, ← hp.2.1]
    split
    · simp only [List.map_cons, ih, hp.1]
    · exact ih

theorem attrsOf_agrees (hb : Blind env pe) {ps ps' : List PFld} (h : AgreePs env pe ps ps') : attrsOf pe ps' = attrsOf pe ps := by
  induction h with
  | nil => rfl
  | @cons p p' ps ps' hp hr ih => simp only [attrsOf, ih, agreePs_any hr (fun f => decide (f.tag = p'.fld.tag)), hp.1, (hb _ _ hp.2.2).2]

theorem marshalN_agrees (hb : Blind env pe) : ∀ (n n' : Nat) path level keys addr c fs fs', depthF fs < n → depthF fs' < n' →
    agreeF env pe (Visible env pe c) fs fs' → marshalN env pe n path level keys addr c fs = marshalN env pe n' path level keys addr c fs'
  | 0, _, _, _, _, _, _, _, _, h, _, _ => by omega
  | _ + 1, 0, _, _, _, _, _, _, _, _, h, _ => by omega
  | n + 1, n' + 1, path, level, keys, addr, c, fs, fs', hd, hd', ha => by
    have hg := getFields_agrees ha pe.embedded (L := (env.struct c).fields) fun f hf hu ht => ⟨f, hf, hu, ht, rfl⟩
    simp only [marshalN, marshalStruct]
    cases h1 : getFields env pe fs pe.embedded (env.struct c).fields with
    | error x =>
      cases h2 : getFields env pe fs' pe.embedded (env.struct c).fields with
      | error x' => rw [h1, h2] at hg; rw [show x = x' from hg]
      | ok r' => rw [h1, h2] at hg; exact hg.elim
    | ok ps =>
      cases h2 : getFields env pe fs' pe.embedded (env.struct c).fields with
      | error x' => rw [h1, h2] at hg; exact hg.elim
      | ok ps' =>
        rw [h1, h2] at hg
        have hc : collect env pe (marshalN env pe n) path level addr keys ps = collect env pe (marshalN env pe n') path level addr keys ps' := by
          refine collect_agrees hb (d := n) (d' := n') (fun path level keys addr c fs fs' => marshalN_agrees hb n n' path level keys addr c fs fs') hg ?_ ?_
          · intro p hp
            obtain ⟨k, hk⟩ := getFields_vals _ h1 p hp
            have := depthF_get hk
            omega
          · intro p hp
            obtain ⟨k, hk⟩ := getFields_vals _ h2 p hp
            have := depthF_get hk
            omega
        simp only [hc, agreePs_names hg, agreePs_any (plainOf_agrees hg) (fun f => !supported f), attrsOf_agrees hb (plainOf_agrees hg)]

end

end Verif.HclS
