import Verif.Lemmas.HclStructPrint
set_option linter.unusedSimpArgs false
/-! Iteration orders and panics when structs are written. -/

namespace Verif.HclS
open Hcl (indent joinB)
open Det (KeyTy)

/-! ## Tags -/

theorem fieldsLoop_word {t : Bytes} (h : ∀ c ∈ t, isSpace c = false) : ∀ cur, cur ++ t ≠ [] → fieldsLoop cur t = [cur ++ t] := by
  induction t with
  | nil => intro cur hc; simp only [List.append_nil] at hc ⊢; simp [fieldsLoop, hc]
  | cons c t ih =>
    intro cur _
    rw [fieldsLoop, h c (by simp)]
    simp only [Bool.false_eq_true, if_false]
    rw [ih (fun x hx => h x (by simp [hx])) _ (by simp)]
    simp

theorem lower_byte {c : UInt8} (h : c ≠ 44 ∧ isSpace c = false) :
    (if 65 ≤ c && c ≤ 90 then c + 32 else c) ≠ 44 ∧ isSpace (if 65 ≤ c && c ≤ 90 then c + 32 else c) = false := by
  split
  · rename_i hc
    simp only [Bool.and_eq_true, decide_eq_true_eq] at hc
    obtain ⟨h1, h2⟩ := hc
    have h1' : 65 ≤ c.toNat := h1
    have h2' : c.toNat ≤ 90 := h2
    have e : (c + 32).toNat = c.toNat + 32 := by
      rw [UInt8.toNat_add]
      have : (32 : UInt8).toNat = 32 := rfl
      rw [this]
      omega
    constructor
    · intro e'
      rw [e'] at e
      have : (44 : UInt8).toNat = 44 := rfl
      omega
    · simp only [isSpace, Bool.or_eq_false_iff, Bool.and_eq_false_iff, decide_eq_false_iff_not]
      constructor
      · intro e'
        rw [e'] at e
        have : (32 : UInt8).toNat = 32 := rfl
        omega
      · right
        intro hle
        have hle' : (c + 32).toNat ≤ (13 : UInt8).toNat := hle
        have : (13 : UInt8).toNat = 13 := rfl
        omega
  · exact h

theorem withTag_tag2 {name : Bytes} (h : ∀ c ∈ name, c ≠ 44 ∧ isSpace c = false) (p : Bool) :
    tag2 (b "hcl:\"" ++ lower name ++ (if p then b ",block\"" else b ",optional\"")) =
      (lower name, if p then b "block" else b "optional") := by
  have hl : ∀ c ∈ lower name, c ≠ 44 ∧ isSpace c = false := by
    intro c hc
    obtain ⟨d, hd, rfl⟩ := List.mem_map.1 hc
    exact lower_byte (h d hd)
  have key : ∀ tail : Bytes, (∀ c ∈ tail, isSpace c = false) →
      tag2 (b "hcl:\"" ++ lower name ++ (44 :: tail ++ [34])) = (lower name, tail) := by
    intro tail ht
    have q : b "hcl:\"" = [104, 99, 108, 58, 34] := rfl
    rw [tag2, fieldsLoop_word]
    · rw [List.nil_append, tagLoop, if_pos]
      · have e : ((b "hcl:\"" ++ lower name ++ (44 :: tail ++ [34])).drop 5).dropLast = lower name ++ 44 :: tail := by
          rw [q]
          simp only [List.cons_append, List.nil_append, List.drop_succ_cons, List.drop_zero]
          have : lower name ++ 44 :: (tail ++ [34]) = (lower name ++ 44 :: tail) ++ [34] := by simp
          rw [this, List.dropLast_concat]
        rw [e, splitTag]
        have h1 : ∀ c ∈ lower name, decide (c ≠ 44) = true := fun c hc => by simpa using (hl c hc).1
        rw [List.takeWhile_append_of_pos h1, List.dropWhile_append_of_pos h1]
        simp
      · rw [q]
        refine ⟨by simp, rfl⟩
    · intro c hc
      simp only [List.mem_append, List.mem_cons, List.mem_singleton, List.not_mem_nil, or_false] at hc
      rcases hc with (hc | hc) | (rfl | hc) | rfl
      · rw [q] at hc
        revert hc
        simp only [List.mem_cons, List.not_mem_nil, or_false]
        rintro (rfl | rfl | rfl | rfl | rfl) <;> rfl
      · exact (hl c hc).2
      · rfl
      · exact ht c hc
      · rfl
    · simp
  cases p with
  | true =>
    have q : b ",block\"" = 44 :: b "block" ++ [34] := rfl
    simp only [if_true, q]
    exact key _ (by decide)
  | false =>
    have q : b ",optional\"" = 44 :: b "optional" ++ [34] := rfl
    simp only [Bool.false_eq_true, if_false, q]
    exact key _ (by decide)

theorem withTag_what {f : Fld} (h : ∀ c ∈ f.name, c ≠ 44 ∧ isSpace c = false) {p : Bool} (hl : (withTag f p).what = b "label") :
    f.what = b "label" := by
  unfold withTag at hl
  split at hl
  · simp only [Fld.what, withTag_tag2 h] at hl
    cases p <;> exact absurd hl (by decide)
  · exact hl

/-! ## One order -/

section
variable {env : Env} {pe pe' : PExt} (he : pe.anon = pe'.anon ∧ pe.expr = pe'.expr ∧ pe.pad = pe'.pad ∧ pe.enc = pe'.enc ∧ pe.raw = pe'.raw ∧
  pe.embedded = pe'.embedded)
include he

theorem fieldList_same {fs : Fields} {deep : List Fld → Except Fail (List PFld)} (L : List Fld) :
    fieldList env pe fs deep L = fieldList env pe' fs deep L := by
  induction L with
  | nil => rfl
  | cons f L ih => simp only [fieldList, ih, he.1]

theorem getFields_same {fs : Fields} (n : Nat) : getFields env pe fs n = getFields env pe' fs n := by
  induction n with
  | zero => funext L; exact fieldList_same he L
  | succ n ih => funext L; rw [getFields, getFields, ih]; exact fieldList_same he L

theorem attrsOf_same (ps : List PFld) : attrsOf pe ps = attrsOf pe' ps := by
  induction ps with
  | nil => rfl
  | cons p ps ih => simp only [attrsOf, ih, he.2.1]

theorem structText_same {level attrs outs} : structText pe level attrs outs = structText pe' level attrs outs := by
  simp only [structText, attrText, he.2.2.1]

theorem pointerText_same {t v} : pointerText pe t v = pointerText pe' t v := by
  unfold pointerText; cases t <;> simp only [he.2.2.2.2.1]

variable {rec rec' : PRec} (hrec : ∀ path level keys addr c fs, smallF fs → rec path level keys addr c fs = rec' path level keys addr c fs)
include hrec

theorem levelText_same {path level ty v} (hv : v.small) : levelText pe rec path level ty v = levelText pe' rec' path level ty v := by
  unfold levelText
  cases v with
  | ref c fs => simp only [hrec _ _ _ _ _ _ hv]
  | inst c fs => simp only [hrec _ _ _ _ _ _ hv]
  | _ => simp only [pointerText_same he, he.2.2.2.1]

theorem sliceOuts_same {path level f ety} {l : List Val} (hl : smallL l) :
    sliceOuts pe rec path level f ety l = sliceOuts pe' rec' path level f ety l := by
  induction l with
  | nil => rfl
  | cons v l ih => simp only [sliceOuts, levelText_same he hrec hl.1, ih hl.2]

theorem elemText_same {path level keys ety v} (hv : v.small) :
    elemText env pe rec path level keys ety v = elemText env pe' rec' path level keys ety v := by
  unfold elemText
  cases v with
  | ref c fs => simp only [hrec _ _ _ _ _ _ hv]
  | inst c fs => simp only [hrec _ _ _ _ _ _ hv]
  | leaf n =>
    cases n with
    | zero => rfl
    | succ n => simp only [pointerText_same he, he.2.2.2.2.1]
  | str s => simp only [he.2.2.2.2.1]
  | _ => rfl

theorem mapOuts_same {κ : Type} [DecidableEq κ] {path level f ety} {labelsOf : κ → List Bytes} {m : List (κ × Val)}
    (hm : ∀ k v, GoMap.get? m k = some v → v.small) (ks : List κ) :
    mapOuts env pe rec path level f ety labelsOf m ks = mapOuts env pe' rec' path level f ety labelsOf m ks := by
  induction ks with
  | nil => rfl
  | cons k ks ih =>
    simp only [mapOuts, ih]
    cases hg : GoMap.get? m k with
    | none => rfl
    | some v => simp only [elemText_same he hrec (hm k v hg)]

omit he hrec in
theorem small_get {m : Fields} (h : smallF m) {k v} (hg : GoMap.get? m k = some v) : v.small := by
  have hm := GoMap.get?_mem hg
  clear hg
  induction m with
  | nil => cases hm
  | cons x m ih =>
    obtain ⟨k', v'⟩ := x
    rcases List.mem_cons.1 hm with e | hm
    · cases e; exact h.1
    · exact ih h.2 hm

omit he hrec in
theorem small_getP {m : List ((Bytes × Bytes) × Val)} (h : smallP m) {k v} (hg : GoMap.get? m k = some v) : v.small := by
  have hm := GoMap.get?_mem hg
  clear hg
  induction m with
  | nil => cases hm
  | cons x m ih =>
    obtain ⟨k', v'⟩ := x
    rcases List.mem_cons.1 hm with e | hm
    · cases e; exact h.1
    · exact ih h.2 hm

omit he hrec in
theorem perm_small {κ : Type} {a c l : List κ} (hl : l.length ≤ 1) (ha : a.Perm l) (hc : c.Perm l) : a = c := by
  match l, hl with
  | [], _ => rw [List.perm_nil.1 ha, List.perm_nil.1 hc]
  | [x], _ => rw [List.perm_singleton.1 ha, List.perm_singleton.1 hc]

variable (h1 : ∀ p l, (pe.ord p l).Perm l) (h2 : ∀ p l, (pe.ord2 p l).Perm l) (h1' : ∀ p l, (pe'.ord p l).Perm l)
  (h2' : ∀ p l, (pe'.ord2 p l).Perm l)
include h1 h2 h1' h2'

theorem outlier_same {path level addr f v} (hv : v.small) :
    outlier env pe rec path level addr f v = outlier env pe' rec' path level addr f v := by
  unfold outlier
  split
  · rw [levelText_same he hrec hv]
  · rw [levelText_same he hrec hv]
  · rw [levelText_same he hrec hv]
  · cases v with
    | inst c fs => simp only [levelText_same he hrec hv, hrec _ _ _ _ _ _ hv]
    | _ => rfl
  · cases v with
    | slice l =>
      cases l with
      | nil => rfl
      | cons x l => simp only [sliceOuts_same he hrec hv, he.2.2.2.1]
    | _ => rfl
  · cases v with
    | map m =>
      have hk : (GoMap.keys m).length ≤ 1 := by simpa [GoMap.keys] using hv.1
      have e : ∀ p, pe.ord p (GoMap.keys m) = pe'.ord p (GoMap.keys m) := fun p => perm_small hk (h1 _ _) (h1' _ _)
      cases m with
      | nil => rfl
      | cons x m =>
        simp only [e, he.2.2.2.1]
        rw [mapOuts_same he hrec (fun k v => small_get hv.2)]
    | map2 m =>
      have hk : (GoMap.keys m).length ≤ 1 := by simpa [GoMap.keys] using hv.1
      have e : ∀ p, pe.ord2 p (GoMap.keys m) = pe'.ord2 p (GoMap.keys m) := fun p => perm_small hk (h2 _ _) (h2' _ _)
      cases m with
      | nil => rfl
      | cons x m =>
        simp only [e, he.2.2.2.1]
        rw [mapOuts_same he hrec (fun k v => small_getP hv.2)]
    | _ => rfl
  · rfl

theorem collect_same {path level addr keys} {ps : List PFld} (hp : ∀ p ∈ ps, p.val.small) :
    collect env pe rec path level addr keys ps = collect env pe' rec' path level addr keys ps := by
  induction ps with
  | nil => rfl
  | cons p ps ih =>
    simp only [collect, outlier_same he hrec h1 h2 h1' h2' (hp p (by simp)), ih fun q hq => hp q (by simp [hq])]

end

/-- Where the written values come from. -/
theorem fieldEntry_mem {f : Fld} {v : Val} {p : PFld} (h : p ∈ fieldEntry f v) : p.val = v ∧ ∃ q, p.fld = withTag f q ∧ p.out = q ∧
    passOf f.ty.coll v = some q := by
  unfold fieldEntry at h
  split at h
  · cases h
  · split at h
    · cases h
    · rename_i q hq
      rw [List.mem_singleton.1 h]
      exact ⟨rfl, q, rfl, rfl, hq⟩

theorem fieldList_vals {env : Env} {pe : PExt} {fs : Fields} {deep : List Fld → Except Fail (List PFld)}
    (hdeep : ∀ L ps, deep L = .ok ps → ∀ p ∈ ps, ∃ k, GoMap.get? fs k = some p.val) : ∀ {L ps}, fieldList env pe fs deep L = .ok ps →
    ∀ p ∈ ps, ∃ k, GoMap.get? fs k = some p.val
  | [], ps, h => by cases h; simp
  | f :: L, ps, h => by
    have ih : ∀ {ps}, fieldList env pe fs deep L = .ok ps → ∀ p ∈ ps, ∃ k, GoMap.get? fs k = some p.val :=
      fun h => fieldList_vals hdeep h
    rw [fieldList] at h
    split at h
    · exact ih h
    · split at h
      · exact ih h
      · split at h
        · split at h
          · split at h
            · cases h
            · exact ih h
          · split at h
            · cases h
            · rename_i r hr
              cases hl : fieldList env pe fs deep L with
              | error x => rw [hl] at h; cases h
              | ok r' =>
                rw [hl] at h
                cases h
                intro p hp
                rcases List.mem_append.1 hp with hp | hp
                · exact hdeep _ _ hr p hp
                · exact ih hl p hp
          · cases h
          · exact ih h
        · split at h
          · cases h
          · rename_i v hv
            cases hl : fieldList env pe fs deep L with
            | error x => rw [hl] at h; cases h
            | ok r' =>
              rw [hl] at h
              cases h
              intro p hp
              rcases List.mem_append.1 hp with hp | hp
              · exact ⟨_, (fieldEntry_mem hp).1 ▸ hv⟩
              · exact ih hl p hp

theorem getFields_vals {env : Env} {pe : PExt} {fs : Fields} : ∀ (n : Nat) {L ps}, getFields env pe fs n L = .ok ps →
    ∀ p ∈ ps, ∃ k, GoMap.get? fs k = some p.val
  | 0, L, ps, h => fieldList_vals (fun _ _ h => by cases h) h
  | n + 1, L, ps, h => fieldList_vals (fun _ _ h => getFields_vals n h) h

theorem marshalN_same {env : Env} {pe pe' : PExt}
    (he : pe.anon = pe'.anon ∧ pe.expr = pe'.expr ∧ pe.pad = pe'.pad ∧ pe.enc = pe'.enc ∧ pe.raw = pe'.raw ∧ pe.embedded = pe'.embedded)
    (h1 : ∀ p l, (pe.ord p l).Perm l) (h2 : ∀ p l, (pe.ord2 p l).Perm l) (h1' : ∀ p l, (pe'.ord p l).Perm l)
    (h2' : ∀ p l, (pe'.ord2 p l).Perm l) (n : Nat) : ∀ path level keys addr c fs, smallF fs →
    marshalN env pe n path level keys addr c fs = marshalN env pe' n path level keys addr c fs := by
  induction n with
  | zero => intros; rfl
  | succ n ih =>
    intro path level keys addr c fs hs
    simp only [marshalN, marshalStruct, ← he.2.2.2.2.2, getFields_same he]
    cases hg : getFields env pe' fs pe.embedded (env.struct c).fields with
    | error x => rfl
    | ok ps =>
      have hp : ∀ p ∈ ps, p.val.small := fun p hp => by
        obtain ⟨k, hk⟩ := getFields_vals _ hg p hp
        exact small_get hs hk
      simp only [collect_same he ih h1 h2 h1' h2' hp, attrsOf_same he, structText_same he]

/-! ## Panics -/

/-- Not a panic. -/
def Calm {α : Type} (x : Except Fail α) : Prop := x ≠ .error .panic

theorem Calm.ok {α : Type} (a : α) : Calm (.ok a : Except Fail α) := by simp [Calm]

theorem Calm.map {α β : Type} {x : Except Fail α} (h : Calm x) (g : α → β) : Calm (x.map g) := by
  cases x with
  | error e => intro he; simp only [Except.map, Except.error.injEq] at he; exact h (by rw [he])
  | ok a => simp [Calm, Except.map]

theorem Calm.error {α β : Type} {x : Except Fail α} {e : Fail} (h : Calm x) (he : x = .error e) : Calm (.error e : Except Fail β) := by
  subst he
  intro h'
  cases h'
  exact h rfl

theorem withTag_name (f : Fld) (q : Bool) : (withTag f q).name = f.name := by unfold withTag; split <;> rfl
theorem withTag_ty (f : Fld) (q : Bool) : (withTag f q).ty = f.ty := by unfold withTag; split <;> rfl

/-- What `getFields` gives, in terms of the fields with embedded ones in their place. -/
structure Gives (fs : Fields) (W : List Fld) (ps : List PFld) : Prop where
  names : (ps.map fun p => p.fld.name).Sublist (W.map Fld.name)
  from_ : ∀ p ∈ ps, ∃ f ∈ W, f.upper = true ∧ GoMap.get? fs f.name = some p.val ∧ p.fld = withTag f p.out ∧ p ∈ fieldEntry f p.val

theorem Gives.append {fs W W' ps ps'} (h : Gives fs W ps) (h' : Gives fs W' ps') : Gives fs (W ++ W') (ps ++ ps') := by
  refine ⟨by simpa using h.names.append h'.names, fun p hp => ?_⟩
  rcases List.mem_append.1 hp with hp | hp
  · obtain ⟨f, hf, h⟩ := h.from_ p hp; exact ⟨f, by simp [hf], h⟩
  · obtain ⟨f, hf, h⟩ := h'.from_ p hp; exact ⟨f, by simp [hf], h⟩

theorem Gives.skip {fs W ps} (W' : List Fld) (h : Gives fs W ps) : Gives fs (W' ++ W) ps := by
  refine ⟨?_, fun p hp => ?_⟩
  · rw [List.map_append]; exact h.names.trans (List.sublist_append_right _ _)
  · obtain ⟨f, hf, h⟩ := h.from_ p hp; exact ⟨f, by simp [hf], h⟩

theorem Gives.entry {fs : Fields} {f : Fld} {v : Val} (hu : f.upper = true) (hg : GoMap.get? fs f.name = some v) : Gives fs [f] (fieldEntry f v) := by
  constructor
  · unfold fieldEntry
    split
    · simp
    · split
      · simp
      · simp [withTag_name]
  · intro p hp
    obtain ⟨h1, q, h2, h3, _⟩ := fieldEntry_mem hp
    exact ⟨f, by simp, hu, by rw [h1]; exact hg, by rw [h2, h3], by rw [h1]; exact hp⟩

/-- The part of a field in the list of fields that are written. -/
def written1 (env : Env) (pe : PExt) (deep : List Fld → List Fld) (f : Fld) : List Fld :=
  if pe.anon f ∧ f.tag = [] then
    match f.ty with
    | .struct c => if f.upper then deep (env.struct c).fields else []
    | _ => [f]
  else [f]

theorem fieldList_gives {env : Env} {pe : PExt} {fs : Fields} {deep : List Fld → Except Fail (List PFld)} {deepW : List Fld → List Fld}
    (hdeep : ∀ L ps, deep L = .ok ps → Gives fs (deepW L) ps) : ∀ {L ps}, fieldList env pe fs deep L = .ok ps →
    Gives fs (L.flatMap (written1 env pe deepW)) ps
  | [], ps, h => by cases h; exact ⟨by simp, by simp⟩
  | f :: L, ps, h => by
    have ih : ∀ {ps}, fieldList env pe fs deep L = .ok ps → Gives fs (L.flatMap (written1 env pe deepW)) ps :=
      fun h => fieldList_gives hdeep h
    rw [List.flatMap_cons]
    rw [fieldList] at h
    split at h
    · exact (ih h).skip _
    · rename_i hu
      have hu : f.upper = true := by simpa using hu
      split at h
      · exact (ih h).skip _
      · split at h
        · rename_i ha
          split at h
          · split at h
            · cases h
            · exact (ih h).skip _
          · rename_i c hty
            split at h
            · cases h
            · rename_i r hr
              cases hl : fieldList env pe fs deep L with
              | error x => rw [hl] at h; cases h
              | ok r' =>
                rw [hl] at h
                cases h
                refine Gives.append ?_ (ih hl)
                rw [written1, if_pos ha, hty]
                simp only [hu, if_true]
                exact hdeep _ _ hr
          · cases h
          · exact (ih h).skip _
        · rename_i ha
          split at h
          · cases h
          · rename_i v hv
            cases hl : fieldList env pe fs deep L with
            | error x => rw [hl] at h; cases h
            | ok r' =>
              rw [hl] at h
              cases h
              refine Gives.append ?_ (ih hl)
              rw [written1, if_neg ha]
              exact .entry hu hv

theorem written_zero (env : Env) (pe : PExt) (L : List Fld) : Gives fs (L.flatMap (written1 env pe fun _ => [])) ps → Gives fs (written env pe 0 L) ps := by
  intro h
  have hsub : (L.flatMap (written1 env pe fun _ => [])).Sublist L := by
    clear h
    induction L with
    | nil => exact .refl _
    | cons f L ih =>
      rw [List.flatMap_cons]
      have : (written1 env pe (fun _ => []) f).Sublist [f] := by
        unfold written1
        split
        · split
          · split <;> simp
          · exact .refl _
        · exact .refl _
      exact this.append ih
  refine ⟨h.names.trans (hsub.map _), fun p hp => ?_⟩
  obtain ⟨f, hf, h⟩ := h.from_ p hp
  exact ⟨f, hsub.subset hf, h⟩

theorem getFields_gives {env : Env} {pe : PExt} {fs : Fields} : ∀ (n : Nat) {L ps}, getFields env pe fs n L = .ok ps → Gives fs (written env pe n L) ps
  | 0, L, ps, h => written_zero env pe L (fieldList_gives (fun _ _ h => by cases h) h)
  | n + 1, L, ps, h => by
    have := fieldList_gives (deepW := written env pe n) (fun _ _ h => getFields_gives n h) h
    exact this

theorem fieldList_calm {env : Env} {pe : PExt} {fs : Fields} {deep : List Fld → Except Fail (List PFld)} : ∀ {L : List Fld},
    (∀ f ∈ L, f.upper = true → ∀ t, ¬ (pe.anon f ∧ f.tag = [] ∧ f.ty = .ptr t)) →
    (∀ f ∈ L, ∀ c, f.upper = true → pe.anon f = true → f.tag = [] → f.ty = .struct c → Calm (deep (env.struct c).fields)) →
    Calm (fieldList env pe fs deep L)
  | [], _, _ => Calm.ok _
  | f :: L, h1, h2 => by
    have ih : Calm (fieldList env pe fs deep L) := fieldList_calm (fun g hg => h1 g (by simp [hg])) (fun g hg => h2 g (by simp [hg]))
    rw [fieldList]
    split
    · exact ih
    · rename_i hu
      have hu : f.upper = true := by simpa using hu
      split
      · exact ih
      · split
        · rename_i ha
          split
          · rename_i c hty; exact absurd ⟨ha.1, ha.2, hty⟩ (h1 f (by simp) hu _)
          · rename_i c hty
            have := h2 f (by simp) c hu ha.1 ha.2 hty
            split
            · rename_i x hx; exact this.error hx
            · exact ih.map _
          · rename_i t _ hty; exact absurd ⟨ha.1, ha.2, hty⟩ (h1 f (by simp) hu _)
          · exact ih
        · split
          · simp [Calm]
          · exact ih.map _

theorem getFields_calm {env : Env} {pe : PExt} {fs : Fields} : ∀ (n : Nat) {L : List Fld},
    (∀ f ∈ written env pe n L, f.upper = true → ∀ t, ¬ (pe.anon f ∧ f.tag = [] ∧ f.ty = .ptr t)) → Calm (getFields env pe fs n L)
  | 0, L, h => fieldList_calm h (fun _ _ _ _ _ _ _ => by simp [Calm])
  | n + 1, L, h => by
    refine fieldList_calm ?_ ?_
    · intro f hf hu t ht
      refine h f ?_ hu t ht
      rw [written]
      refine List.mem_flatMap.2 ⟨f, hf, ?_⟩
      rw [if_pos ⟨ht.1, ht.2.1⟩, ht.2.2]
      simp
    · intro f hf c hu ha htag hty
      refine getFields_calm n fun g hg hgu t ht => h g ?_ hgu t ht
      rw [written]
      refine List.mem_flatMap.2 ⟨f, hf, ?_⟩
      rw [if_pos ⟨ha, htag⟩, hty]
      simpa [hu] using hg

section
variable {env : Env} {pe : PExt} {good : Nat → Fields → Prop} {rec : PRec} (henc : ∀ v k, Calm (pe.enc v k))
  (hrec : ∀ path level keys addr c fs, good c fs → Calm (rec path level keys addr c fs))
include henc hrec

omit henc hrec in
theorem pointerText_calm {t v} (h : (Ty.ptr t).ptrOk) : Calm (pointerText pe t v) := by
  cases t with
  | str => cases v <;> simp [pointerText, Calm]
  | leaf i => cases v <;> simp [pointerText, Calm]
  | struct c => simp [pointerText, Calm]
  | _ => exact h.elim

theorem levelText_calm {path level ty v} (ht : ty.ptrOk) (hv : StructGood good v) : Calm (levelText pe rec path level ty v) := by
  unfold levelText
  split
  · exact Calm.ok _
  · split
    · exact hrec _ _ _ _ _ _ hv
    · exact hrec _ _ _ _ _ _ hv
    · split
      · exact pointerText_calm ht
      · exact henc _ _

theorem sliceOuts_calm {path level f ety} (ht : ety.ptrOk) {l : List Val} (hl : ∀ x ∈ l, StructGood good x) : Calm (sliceOuts pe rec path level f ety l) := by
  induction l with
  | nil => exact Calm.ok _
  | cons v l ih =>
    rw [sliceOuts]
    have h1 := levelText_calm henc hrec (path := path ++ [f.name, List.replicate l.length 0]) (level := level + 1) (ty := ety) ht (hl v (by simp))
    split
    · rename_i x hx; exact h1.error hx
    · exact (ih fun x hx => hl x (by simp [hx])).map _

omit henc in
theorem elemText_calm {path level keys ety v} (ht : ety.ptrOk) (h1 : StructGood good v) (h2 : ∀ t, ety = .ptr t → v ≠ .leaf 0) (h3 : v.isColl = false) :
    Calm (elemText env pe rec path level keys ety v) := by
  unfold elemText
  split
  · exact hrec _ _ _ _ _ _ h1
  · exact hrec _ _ _ _ _ _ h1
  · split
    · exact absurd rfl (h2 _ rfl)
    · exact Calm.ok _
    · exact Calm.ok _
    · exact absurd rfl (h2 _ rfl)
    · exact Calm.ok _
  · exact Calm.ok _
  · split
    · exact pointerText_calm ht
    · exact Calm.ok _
  · rename_i a c d e f
    cases v with
    | str s => exact absurd rfl (e s)
    | ref x y => exact absurd rfl (a x y)
    | inst x y => exact absurd rfl (c x y)
    | leaf x => exact absurd rfl (f x)
    | _ => cases h3

omit henc in
theorem mapOuts_calm {κ : Type} [DecidableEq κ] {path level f ety} (ht : ety.ptrOk) {labelsOf : κ → List Bytes} {m : List (κ × Val)}
    (hm : ∀ v ∈ m.map Prod.snd, StructGood good v ∧ (∀ t, ety = .ptr t → v ≠ .leaf 0) ∧ v.isColl = false) (ks : List κ) :
    Calm (mapOuts env pe rec path level f ety labelsOf m ks) := by
  induction ks with
  | nil => exact Calm.ok _
  | cons k ks ih =>
    rw [mapOuts]
    cases hg : GoMap.get? m k with
    | none => exact ih
    | some v =>
      obtain ⟨h1, h2, h3⟩ := hm v (List.mem_map.2 ⟨(k, v), GoMap.get?_mem hg, rfl⟩)
      have := elemText_calm (env := env) (pe := pe) hrec (path := path ++ f.name :: labelsOf k) (level := level + 1) (keys := labelsOf k) (ety := ety) ht h1 h2 h3
      simp only []
      split
      · rename_i x hx; exact this.error hx
      · exact ih.map _

omit henc hrec in
/-- In a map whose elements are written one by one there are no collections. -/
theorem elems_loop {κ : Type} [DecidableEq κ] {ety : Ty} {m : List (κ × Val)} {k : Option κ}
    (hm : ElemsGood good ety (m.map Prod.snd)) (hl : isLoop ety ((k.bind (GoMap.get? m)).getD (.leaf 0)) = true) :
    ∀ v ∈ m.map Prod.snd, StructGood good v ∧ (∀ t, ety = .ptr t → v ≠ .leaf 0) ∧ v.isColl = false := by
  intro v hv
  obtain ⟨h1, h2, h3⟩ := hm v hv
  refine ⟨h1, h2, ?_⟩
  cases hc : v.isColl with
  | false => rfl
  | true =>
    obtain ⟨h4, h5, h6⟩ := h3 hc
    have hfirst : ∀ w, (k.bind (GoMap.get? m)).getD (.leaf 0) = w → w.isStruct = true → w ∈ m.map Prod.snd := by
      intro w hw hs
      cases k with
      | none => simp only [Option.bind_none, Option.getD_none] at hw; subst hw; cases hs
      | some k =>
        simp only [Option.bind_some] at hw
        cases hg : GoMap.get? m k with
        | none => rw [hg] at hw; simp only [Option.getD_none] at hw; subst hw; cases hs
        | some u =>
          rw [hg] at hw
          simp only [Option.getD_some] at hw
          subst hw
          exact List.mem_map.2 ⟨_, GoMap.get?_mem hg, rfl⟩
    generalize (k.bind (GoMap.get? m)).getD (.leaf 0) = w at hl hfirst
    have hst : (ety = .any ∨ ∃ i, ety = .iface i) → w.isStruct = true := by
      rintro (rfl | ⟨i, rfl⟩) <;> cases w <;> simp_all [isLoop, Val.isStruct]
    cases ety with
    | ptr t => exact absurd rfl (h4 t)
    | struct c => exact absurd rfl (h5 c)
    | any => exact absurd rfl (h6 w (hfirst w rfl (hst (.inl rfl))) (hst (.inl rfl))).1
    | iface i => exact absurd rfl ((h6 w (hfirst w rfl (hst (.inr ⟨i, rfl⟩))) (hst (.inr ⟨i, rfl⟩))).2 i)
    | _ => simp [isLoop] at hl

omit henc hrec in
theorem coll_ptrOk {t t' : Ty} (h : t.coll = t') (h1 : ∀ e, t' ≠ .slice e) (h2 : ∀ k e, t' ≠ .map k e) (ht : t'.ptrOk) : t.ptrOk := by
  subst h
  cases t with
  | ptr t =>
    cases t with
    | slice e => exact absurd rfl (h1 e)
    | map k e => exact absurd rfl (h2 k e)
    | _ => exact ht
  | _ => exact ht

theorem outlier_calm {path level addr f v} (hv : ValGood good f.ty v) : Calm (outlier env pe rec path level addr f v) := by
  unfold ValGood at hv
  unfold outlier
  split
  · rename_i h; rw [h] at hv; exact (levelText_calm henc hrec (coll_ptrOk h (by simp) (by simp) hv.1) hv.2).map _
  · rename_i h; rw [h] at hv; exact (levelText_calm henc hrec (coll_ptrOk h (by simp) (by simp) hv.1) hv.2).map _
  · rename_i h; rw [h] at hv; exact (levelText_calm henc hrec (coll_ptrOk h (by simp) (by simp) hv.1) hv.2).map _
  · rename_i h; rw [h] at hv
    cases v with
    | inst c fs =>
      simp only []
      split
      · exact (hrec _ _ _ _ _ _ hv.2).map _
      · exact (levelText_calm henc hrec (coll_ptrOk h (by simp) (by simp) hv.1) hv.2).map _
    | _ => simp [Calm]
  · rename_i h; rw [h] at hv
    cases v with
    | slice l =>
      cases l with
      | nil => exact Calm.ok _
      | cons x l =>
        simp only []
        split
        · exact sliceOuts_calm henc hrec hv.1 (hv.2 _ rfl)
        · exact (henc _ _).map _
    | _ => exact Calm.ok _
  · rename_i h; rw [h] at hv
    cases v with
    | map m =>
      cases m with
      | nil => exact Calm.ok _
      | cons x m =>
        simp only []
        split
        · rename_i hl; exact mapOuts_calm hrec hv.1 (elems_loop (hv.2.1 _ rfl) hl) _
        · exact (henc _ _).map _
    | map2 m =>
      cases m with
      | nil => exact Calm.ok _
      | cons x m =>
        simp only []
        split
        · rename_i hl; exact mapOuts_calm hrec hv.1 (elems_loop (hv.2.2 _ rfl) hl) _
        · exact (henc _ _).map _
    | _ => exact Calm.ok _
  · exact Calm.ok _

theorem collect_calm {path level addr keys} {ps : List PFld}
    (hp : ∀ p ∈ ps, (p.fld.what = b "label" → p.fld.ty = .str ∧ ∃ s, p.val = .str s) ∧ (p.out = false → p.fld.ty.coll = p.fld.ty) ∧ ValGood good p.fld.ty p.val) :
    Calm (collect env pe rec path level addr keys ps) := by
  induction ps with
  | nil => exact Calm.ok _
  | cons p ps ih =>
    have ih := ih fun q hq => hp q (by simp [hq])
    obtain ⟨h1, h0, h2⟩ := hp p (by simp)
    rw [collect]
    split
    · have := outlier_calm (env := env) henc hrec (path := path) (level := level) (addr := addr) h2
      split
      · rename_i x hx; exact this.error hx
      · exact ih.map _
    · split
      · rename_i hw
        obtain ⟨h3, s, h4⟩ := h1 hw
        rw [h3, h4]
        exact ih.map _
      · rename_i ho _
        rw [if_neg (by simpa using h0 (by simpa using ho))]
        exact ih

end

theorem entry_coll {f : Fld} {p : PFld} (h : CollOk f.ty p.val) (hp : p ∈ fieldEntry f p.val) (ho : p.out = false) : f.ty.coll = f.ty := by
  obtain ⟨_, q, _, h1, h2⟩ := fieldEntry_mem hp
  have hz : ¬ (f.ty.coll ≠ f.ty ∧ p.val.isZero) := by
    intro hz
    rw [fieldEntry, if_pos hz] at hp
    cases hp
  by_cases hc : f.ty.coll = f.ty
  · exact hc
  · exfalso
    have hv : p.val ≠ .leaf 0 := fun h => hz ⟨hc, by rw [h]; rfl⟩
    rw [ho] at h1
    subst h1
    generalize f.ty = ty at *
    cases ty with
    | ptr t =>
      cases t with
      | slice e =>
        have := h e (.inl rfl)
        simp only [Ty.coll, passOf, Option.some.injEq, Bool.or_eq_false_iff, decide_eq_false_iff_not] at h2
        rcases this with h' | h' | h' | h' | h' <;> simp_all [Val.len]
      | map k e =>
        have := h e (.inr ⟨k, rfl⟩)
        simp only [Ty.coll, passOf, Option.some.injEq, Bool.or_eq_false_iff, decide_eq_false_iff_not] at h2
        rcases this with h' | h' | h' | h' | h' <;> simp_all [Val.len]
      | _ => exact hc rfl
    | _ => exact hc rfl

theorem marshalN_calm {env : Env} {pe : PExt} (henc : ∀ v k, Calm (pe.enc v k)) (n N : Nat) :
    ∀ path level keys addr c fs, Tame env pe n c fs → Calm (marshalN env pe N path level keys addr c fs) := by
  induction n generalizing N with
  | zero => intro _ _ _ _ _ _ h; exact h.elim
  | succ n ih =>
    intro path level keys addr c fs h
    obtain ⟨h1, h2⟩ := h
    cases N with
    | zero => simp [marshalN, Calm]
    | succ N =>
      rw [marshalN, marshalStruct]
      have hg := getFields_calm (env := env) (pe := pe) (fs := fs) pe.embedded (L := (env.struct c).fields) (fun f hf hu => (h2 f hf hu).2.1)
      cases hgf : getFields env pe fs pe.embedded (env.struct c).fields with
      | error x => exact hg.error hgf
      | ok ps =>
        have hgi := getFields_gives _ hgf
        have hc : Calm (collect env pe (marshalN env pe N) path level addr keys ps) := by
          refine collect_calm henc (ih N) fun p hp => ?_
          obtain ⟨f, hf, hu, hv, he, hen⟩ := hgi.from_ p hp
          obtain ⟨h3, _, h4⟩ := h2 f hf hu
          obtain ⟨h5, h7, h6⟩ := h4 _ hv
          rw [he, withTag_ty]
          exact ⟨fun hw => h5 (withTag_what h3 hw), entry_coll h7 hen, h6⟩
        simp only []
        split
        · rename_i x hx; exact hc.error hx
        · rw [if_neg]
          · split
            · simp [Calm]
            · exact Calm.ok _
          · intro hn
            refine hn ?_
            have := (((List.filter_sublist (p := fun p : PFld => !p.out) (l := ps)).map fun p => p.fld.name).trans hgi.names).nodup h1
            exact this

end Verif.HclS
