import Verif.Spec.HclStructAgain
import Verif.Lemmas.HclStructState
/-!
# Decoding with a specification that an earlier call has filled
-/
set_option linter.unusedSimpArgs false
namespace Verif.HclS
open Tree (Heap)
open Hcl (Cty)
open Det (Cls CVal KeyTy)

variable {env : Env} {ext : Ext}

theorem set_self {α : Type} {m : GoMap Bytes α} {k : Bytes} {v : α} (h : GoMap.get? m k = some v) : GoMap.set m k v = m := by
  induction m with
  | nil => cases h
  | cons e m ih =>
    obtain ⟨k', v'⟩ := e
    simp only [GoMap.get?, GoMap.set] at h ⊢
    split
    · rename_i hk
      subst hk
      simp only [if_true] at h
      cases h; rfl
    · rename_i hk
      simp only [hk, if_false] at h
      rw [ih h]

/-- What `loopFields` adds for a field by itself. -/
def auto (env : Env) (ext : Ext) (f : Fld) : Option (Bytes × Tmpl × CVal) :=
  let elem (k : ElemKind) (v : Bytes → CVal) : Option (Bytes × Tmpl × CVal) :=
    match k with
    | .cls name tmpl => some (name, tmpl, v name)
    | _ => none
  match f.ty.deref with
  | .struct c => some ((env.struct c).str, newOf env ext (.struct c), .single (.mk (env.struct c).str []))
  | .map .str2 e => elem (elemKind env ext e) fun s => .map2 [([], [([], .mk s [])])]
  | .slice e => elem (elemKind env ext e) fun s => .list [.mk s []]
  | .map _ e => elem (elemKind env ext e) fun s => .list [.mk s []]
  | _ => none

theorem elemKind_entry {t : Ty} {nm : Bytes} {tm : Tmpl} (h : elemKind env ext t = .cls nm tm) : TypeEntry env ext nm tm := by
  cases t <;> simp only [elemKind] at h <;> cases h
  · exact .struct _
  · exact .ptr _

theorem auto_entry {f : Fld} {nm : Bytes} {tm : Tmpl} {v : CVal} (h : auto env ext f = some (nm, tm, v)) : TypeEntry env ext nm tm := by
  simp only [auto] at h
  split at h
  · cases h; exact .struct _
  all_goals first
    | (split at h
       · rename_i hk; cases h; exact elemKind_entry hk
       · cases h)
    | cases h

theorem addTagged_auto {f : Fld} {nm : Bytes} {tm : Tmpl} {v : CVal} (h : auto env ext f = some (nm, tm, v)) (lf : LF) :
    lf.addTagged env ext f = lf.addOri f nm tm v := by
  simp only [auto] at h
  simp only [LF.addTagged]
  split at h <;> rename_i hd <;> simp only [hd]
  · cases h; rfl
  all_goals first
    | (split at h
       · rename_i hk; cases h; simp only [LF.addElem, hk]
       · cases h)
    | cases h

theorem addElem_none {f : Fld} {k : ElemKind} {v : Bytes → CVal}
    (h : (match k with | .cls name tmpl => some (name, tmpl, v name) | _ => none : Option (Bytes × Tmpl × CVal)) = none) :
    (∀ lf : LF, lf.addElem f k v = { lf with news := lf.news ++ [f] }) ∨ ∀ lf : LF, lf.addElem f k v = { lf with decs := lf.decs ++ [f] } := by
  cases k with
  | cls _ _ => cases h
  | dyn => exact Or.inr fun _ => rfl
  | plain => exact Or.inl fun _ => rfl

theorem addTagged_none {f : Fld} (h : auto env ext f = none) :
    (∀ lf : LF, lf.addTagged env ext f = { lf with news := lf.news ++ [f] }) ∨
    ∀ lf : LF, lf.addTagged env ext f = { lf with decs := lf.decs ++ [f] } := by
  simp only [auto] at h
  simp only [LF.addTagged]
  split at h <;> rename_i hd <;> simp only [hd]
  · cases h
  · exact addElem_none h
  · exact addElem_none h
  · exact addElem_none h
  · exact Or.inl fun _ => trivial

/-- An entry that `loopFields` makes by itself for one of the fields, its class being registered. -/
def SelfMade (env : Env) (ext : Ext) (A : List Fld) (ref : GoMap Bytes Tmpl) (k : Bytes) (v : CVal) : Prop :=
  ∃ f ∈ A, f.name = k ∧ f.tag ≠ [] ∧ ∃ nm tm, auto env ext f = some (nm, tm, v) ∧ GoMap.get? ref nm = some tm

/-- Types of one name have one new value. -/
def OneNew (env : Env) (ext : Ext) : Prop := ∀ k t t', TypeEntry env ext k t → TypeEntry env ext k t' → t' = t

theorem SelfMade.set {A : List Fld} {ref : GoMap Bytes Tmpl} {k : Bytes} {v : CVal} (hone : OneNew env ext) (h : SelfMade env ext A ref k v)
    {nm : Bytes} {tm : Tmpl} (ht : TypeEntry env ext nm tm) : SelfMade env ext A (GoMap.set ref nm tm) k v := by
  obtain ⟨f, hf, hk, htag, nm', tm', ha, hr⟩ := h
  refine ⟨f, hf, hk, htag, nm', tm', ha, ?_⟩
  rw [GoMap.get?_set]
  split
  · rename_i he
    subst he
    rw [hone _ _ _ (auto_entry ha) ht]
  · exact hr

/-- The same results with two specifications, the second having entries that would be made anyway. -/
structure Twin (env : Env) (ext : Ext) (A : List Fld) (x y : LF) : Prop where
  same : ∃ o, y = { x with obj := o }
  sub : ∀ k v, GoMap.get? x.obj k = some v → GoMap.get? y.obj k = some v
  extra : ∀ k v, GoMap.get? y.obj k = some v → GoMap.get? x.obj k = some v ∨ SelfMade env ext A y.ref k v
  has : ∀ f ∈ x.oris, (GoMap.get? x.obj f.name).isSome

theorem loopList_twin {A : List Fld} (hA : ∀ f ∈ A, ∀ g ∈ A, f.name = g.name → f = g) (hone : OneNew env ext) {nulls : List Bytes}
    {deep : List Fld → LF → Except Fail LF} {wdeep : List Fld → List Fld}
    (hdeep : ∀ fs x y x', (∀ f ∈ wdeep fs, f ∈ A) → Twin env ext A x y → deep fs x = .ok x' → ∃ y', deep fs y = .ok y' ∧ Twin env ext A x' y') :
    ∀ fs x y x', (∀ f ∈ wholeList env wdeep fs, f ∈ A) → Twin env ext A x y → loopList env ext nulls deep fs x = .ok x' →
      ∃ y', loopList env ext nulls deep fs y = .ok y' ∧ Twin env ext A x' y' := by
  intro fs
  induction fs with
  | nil => intro x y x' _ ht h; simp only [loopList] at h ⊢; cases h; exact ⟨y, rfl, ht⟩
  | cons f fs ih =>
    intro x y x' hw ht h
    have hws : ∀ g ∈ wholeList env wdeep fs, g ∈ A := fun g hg => hw g (by simp only [wholeList]; exact List.mem_append_right _ hg)
    simp only [loopList] at h ⊢
    by_cases h1 : (!f.upper) = true
    · rw [if_pos h1] at h ⊢; exact ih _ _ _ hws ht h
    rw [if_neg h1] at h ⊢
    have hup : f.upper = true := by simpa using h1
    have hfA : f ∈ A := hw f (by simp only [wholeList, hup]; simp)
    by_cases h2 : f.tag ∈ nulls
    · rw [if_pos h2] at h ⊢; exact ih _ _ _ hws ht h
    rw [if_neg h2] at h ⊢
    obtain ⟨⟨o, rfl⟩, hsub, hext, hhas⟩ := ht
    by_cases h3 : lower f.what = b "label"
    · rw [if_pos h3] at h ⊢
      exact ih { x with labels := x.labels ++ [f] } _ _ hws ⟨⟨o, rfl⟩, hsub, hext, hhas⟩ h
    rw [if_neg h3] at h ⊢
    by_cases h4 : f.tag = b "-" ∨ (b ",-").isSuffixOf f.tag
    · rw [if_pos h4] at h ⊢
      exact ih x _ _ hws ⟨⟨o, rfl⟩, hsub, hext, hhas⟩ h
    rw [if_neg h4] at h ⊢
    dsimp only at hsub hext ⊢
    by_cases h5 : (GoMap.get? x.obj f.name).isSome
    · have h5' : (GoMap.get? o f.name).isSome := by
        obtain ⟨v, hv⟩ := Option.isSome_iff_exists.1 h5
        rw [hsub _ _ hv]; rfl
      rw [if_pos h5] at h
      rw [if_pos h5']
      by_cases h6 : f.tag = [] ∧ f.ty.structOf.isSome
      · rw [if_pos h6] at h; cases h
      · rw [if_neg h6] at h ⊢
        refine ih { x with oris := x.oris ++ [f] } _ _ hws ⟨⟨o, rfl⟩, hsub, hext, ?_⟩ h
        intro g hg
        rcases List.mem_append.1 hg with hg | hg
        · exact hhas g hg
        · rw [List.mem_singleton.1 hg]; exact h5
    · rw [if_neg h5] at h
      have hown : ∀ v, GoMap.get? o f.name = some v → f.tag ≠ [] ∧ ∃ nm tm, auto env ext f = some (nm, tm, v) ∧ GoMap.get? x.ref nm = some tm := by
        intro v hv
        rcases hext _ _ hv with hv | ⟨g, hg, hn, htag, nm, tm, ha, hr⟩
        · rw [hv] at h5; exact absurd rfl h5
        · rw [hA g hg f hfA hn] at htag ha
          exact ⟨htag, nm, tm, ha, hr⟩
      by_cases h6 : f.tag = []
      · have h5' : ¬ (GoMap.get? o f.name).isSome = true := by
          intro hs
          obtain ⟨v, hv⟩ := Option.isSome_iff_exists.1 hs
          exact (hown v hv).1 h6
        rw [if_pos h6] at h
        rw [if_neg h5', if_pos h6]
        cases hst : f.ty.structOf with
        | none =>
          rw [hst] at h
          exact ih x _ _ hws ⟨⟨o, rfl⟩, hsub, hext, hhas⟩ h
        | some c =>
          rw [hst] at h
          dsimp only at h ⊢
          cases hd : deep (env.struct c).fields x with
          | error e => rw [hd] at h; cases h
          | ok x1 =>
            rw [hd] at h
            obtain ⟨y1, hy1, ht1⟩ := hdeep (env.struct c).fields x { x with obj := o } x1
              (fun g hg => hw g (by simp only [wholeList, hup, h6, hst]; simp [hg])) ⟨⟨o, rfl⟩, hsub, hext, hhas⟩ hd
            rw [hy1]
            exact ih _ _ _ hws ht1 h
      · rw [if_neg h6] at h
        cases ha : auto env ext f with
        | none =>
          have h5' : ¬ (GoMap.get? o f.name).isSome = true := by
            intro hs
            obtain ⟨v, hv⟩ := Option.isSome_iff_exists.1 hs
            obtain ⟨_, nm, tm, ha', _⟩ := hown v hv
            rw [ha] at ha'; cases ha'
          rw [if_neg h5', if_neg h6]
          rcases addTagged_none ha with hadd | hadd
          · rw [hadd] at h ⊢
            exact ih { x with news := x.news ++ [f] } _ _ hws ⟨⟨o, rfl⟩, hsub, hext, hhas⟩ h
          · rw [hadd] at h ⊢
            exact ih { x with decs := x.decs ++ [f] } _ _ hws ⟨⟨o, rfl⟩, hsub, hext, hhas⟩ h
        | some e =>
          obtain ⟨nm, tm, v⟩ := e
          rw [addTagged_auto ha] at h
          have hhas' : ∀ g ∈ x.oris ++ [f], (GoMap.get? (GoMap.set x.obj f.name v) g.name).isSome := by
            intro g hg
            rw [GoMap.get?_set]
            split
            · rfl
            · rename_i hne
              rcases List.mem_append.1 hg with hg | hg
              · exact hhas g hg
              · rw [List.mem_singleton.1 hg] at hne; exact absurd rfl hne
          by_cases h5' : (GoMap.get? o f.name).isSome = true
          · rw [if_pos h5']
            obtain ⟨w, hw'⟩ := Option.isSome_iff_exists.1 h5'
            obtain ⟨_, nm', tm', ha', hr⟩ := hown w hw'
            rw [ha] at ha'
            cases ha'
            rw [if_neg (fun hh => h6 hh.1)]
            refine ih (x.addOri f nm tm v) _ _ hws ⟨⟨o, ?_⟩, ?_, ?_, hhas'⟩ h
            · simp only [LF.addOri, set_self hr]
            · intro k u hu
              simp only [LF.addOri, GoMap.get?_set] at hu
              split at hu
              · rename_i hk; subst hk; cases hu; exact hw'
              · exact hsub _ _ hu
            · intro k u hu
              rcases hext k u hu with hu' | hu'
              · refine Or.inl ?_
                simp only [LF.addOri, GoMap.get?_set]
                split
                · rename_i hk; subst hk; rw [← hu]; exact hw'.symm
                · exact hu'
              · exact Or.inr hu'
          · rw [if_neg h5', if_neg h6, addTagged_auto ha]
            refine ih (x.addOri f nm tm v) _ _ hws ⟨⟨GoMap.set o f.name v, rfl⟩, ?_, ?_, hhas'⟩ h
            · intro k u hu
              simp only [LF.addOri, GoMap.get?_set] at hu ⊢
              split at hu
              · rename_i hk; rw [if_pos hk]; exact hu
              · rename_i hk; rw [if_neg hk]; exact hsub _ _ hu
            · intro k u hu
              simp only [LF.addOri, GoMap.get?_set] at hu ⊢
              split at hu
              · rename_i hk; rw [if_pos hk]; exact Or.inl hu
              · rename_i hk; rw [if_neg hk]
                rcases hext k u hu with hu' | hu'
                · exact Or.inl hu'
                · exact Or.inr (hu'.set hone (auto_entry ha))

theorem loopFields_twin {A : List Fld} (hA : ∀ f ∈ A, ∀ g ∈ A, f.name = g.name → f = g) (hone : OneNew env ext) {nulls : List Bytes} :
    ∀ n fs x y x', (∀ f ∈ whole env n fs, f ∈ A) → Twin env ext A x y → loopFields env ext nulls n fs x = .ok x' →
      ∃ y', loopFields env ext nulls n fs y = .ok y' ∧ Twin env ext A x' y' := by
  intro n
  induction n with
  | zero => exact loopList_twin hA hone fun _ _ _ _ _ _ h => by cases h
  | succ n ih => exact loopList_twin hA hone ih

/-! ## What the first call leaves in the specification -/

/-- Every entry was there or is of the kind that `loopFields` makes. -/
def Filled (env : Env) (ext : Ext) (A : List Fld) (obj : List (Bytes × CVal)) (x : LF) : Prop :=
  ∀ k v, GoMap.get? x.obj k = some v → GoMap.get? obj k = some v ∨ SelfMade env ext A x.ref k v

theorem loopList_filled {A : List Fld} (hone : OneNew env ext) {nulls : List Bytes} {obj : List (Bytes × CVal)}
    {deep : List Fld → LF → Except Fail LF} {wdeep : List Fld → List Fld}
    (hdeep : ∀ fs x x', (∀ f ∈ wdeep fs, f ∈ A) → Filled env ext A obj x → deep fs x = .ok x' → Filled env ext A obj x') :
    ∀ fs x x', (∀ f ∈ wholeList env wdeep fs, f ∈ A) → Filled env ext A obj x → loopList env ext nulls deep fs x = .ok x' →
      Filled env ext A obj x' := by
  intro fs
  induction fs with
  | nil => intro x x' _ ht h; simp only [loopList] at h; cases h; exact ht
  | cons f fs ih =>
    intro x x' hw ht h
    have hws : ∀ g ∈ wholeList env wdeep fs, g ∈ A := fun g hg => hw g (by simp only [wholeList]; exact List.mem_append_right _ hg)
    simp only [loopList] at h
    by_cases h1 : (!f.upper) = true
    · rw [if_pos h1] at h; exact ih _ _ hws ht h
    rw [if_neg h1] at h
    have hup : f.upper = true := by simpa using h1
    have hfA : f ∈ A := hw f (by simp only [wholeList, hup]; simp)
    by_cases h2 : f.tag ∈ nulls
    · rw [if_pos h2] at h; exact ih _ _ hws ht h
    rw [if_neg h2] at h
    by_cases h3 : lower f.what = b "label"
    · rw [if_pos h3] at h; exact ih { x with labels := x.labels ++ [f] } _ hws ht h
    rw [if_neg h3] at h
    by_cases h4 : f.tag = b "-" ∨ (b ",-").isSuffixOf f.tag
    · rw [if_pos h4] at h; exact ih _ _ hws ht h
    rw [if_neg h4] at h
    by_cases h5 : (GoMap.get? x.obj f.name).isSome
    · rw [if_pos h5] at h
      split at h
      · cases h
      · exact ih { x with oris := x.oris ++ [f] } _ hws ht h
    rw [if_neg h5] at h
    by_cases h6 : f.tag = []
    · rw [if_pos h6] at h
      cases hst : f.ty.structOf with
      | none => rw [hst] at h; exact ih _ _ hws ht h
      | some c =>
        rw [hst] at h
        dsimp only at h
        cases hd : deep (env.struct c).fields x with
        | error e => rw [hd] at h; cases h
        | ok x1 =>
          rw [hd] at h
          exact ih _ _ hws (hdeep _ _ _ (fun g hg => hw g (by simp only [wholeList, hup, h6, hst]; simp [hg])) ht hd) h
    · rw [if_neg h6] at h
      cases ha : auto env ext f with
      | none =>
        rcases addTagged_none ha with hadd | hadd
        · rw [hadd] at h; exact ih { x with news := x.news ++ [f] } _ hws ht h
        · rw [hadd] at h; exact ih { x with decs := x.decs ++ [f] } _ hws ht h
      | some e =>
        obtain ⟨nm, tm, v⟩ := e
        rw [addTagged_auto ha] at h
        refine ih (x.addOri f nm tm v) _ hws ?_ h
        intro k u hu
        simp only [LF.addOri, GoMap.get?_set] at hu ⊢
        split at hu
        · rename_i hk
          cases hu
          exact Or.inr ⟨f, hfA, hk, h6, nm, tm, ha, by rw [GoMap.get?_set, if_pos rfl]⟩
        · rcases ht k u hu with hu' | hu'
          · exact Or.inl hu'
          · exact Or.inr (hu'.set hone (auto_entry ha))

theorem loopFields_filled {A : List Fld} (hone : OneNew env ext) {nulls : List Bytes} {obj : List (Bytes × CVal)} :
    ∀ n fs x x', (∀ f ∈ whole env n fs, f ∈ A) → Filled env ext A obj x → loopFields env ext nulls n fs x = .ok x' →
      Filled env ext A obj x' := by
  intro n
  induction n with
  | zero => exact loopList_filled hone fun _ _ _ _ _ h => by cases h
  | succ n ih => exact loopList_filled hone ih

/-! ## The call -/

theorem route_obj (nulls : List Bytes) (lf : LF) (o : List (Bytes × CVal)) : route nulls { lf with obj := o } = route nulls lf := rfl

theorem routed_obj (nulls : List Bytes) (lf : LF) (o : List (Bytes × CVal)) : routed nulls { lf with obj := o } = routed nulls lf := rfl

theorem oriAttrs_obj (nulls : List Bytes) (lf : LF) (o : List (Bytes × CVal)) (vals : List (Bytes × Cty)) (node : Nat) :
    ∀ ks h, oriAttrs nulls { lf with obj := o } vals node ks h = oriAttrs nulls lf vals node ks h := by
  intro ks
  induction ks with
  | nil => intro h; rfl
  | cons k ks ih =>
    intro h
    simp only [oriAttrs, routed_obj, ih]

theorem oriBlocks_obj (nulls : List Bytes) (lf : LF) (o : List (Bytes × CVal)) (body : Body) (vals : List (Bytes × Cty)) :
    oriBlocks ext nulls { lf with obj := o } body vals = oriBlocks ext nulls lf body vals := rfl

/-- With the entries that would be made anyway, decoding is the same. -/
theorem decode_twin {n root : Nat} {path : List Bytes} {st : St} {node cls : Nat} {fs : Fields} {obj obj' : List (Bytes × CVal)}
    {labels : List Bytes} {body : Body} {fs' : Fields} {st' : St} (hone : OneNew env ext) (hA : NamesOnce env n cls)
    (hsub : ∀ k v, GoMap.get? obj k = some v → GoMap.get? obj' k = some v)
    (hext : ∀ k v, GoMap.get? obj' k = some v → GoMap.get? obj k = some v ∨ SelfMade env ext (whole env n (env.struct cls).fields) st.ref k v)
    (h : decode env ext root (n + 1) path st node cls fs obj labels body = (fs', .ok st')) :
    decode env ext root (n + 1) path st node cls fs obj' labels body = (fs', .ok st') := by
  obtain ⟨p, hp, hs⟩ := decode_ok h
  obtain ⟨h1, h2, hpre, hori, hheap, hraw⟩ := prepare_ok hp
  obtain ⟨h0, hev, hbl, hlf⟩ := prelude_ok hpre
  obtain ⟨y, hy, ⟨o, rfl⟩, hs1, _, hhas⟩ := loopFields_twin hA hone n _ ⟨[], [], [], [], obj, st.ref⟩ ⟨[], [], [], [], obj', st.ref⟩ _
    (fun f hf => hf) ⟨⟨obj', rfl⟩, hsub, hext, fun f hf => by cases hf⟩ hlf
  have hp' : prepare env ext n root st node cls obj' path body = .ok ⟨p.vals, { p.lf with obj := o }, p.raw, p.heap⟩ := by
    simp only [prepare, prelude, hev, hbl, hy, oriAttrs_obj, hori, routed_obj]
    have hg : gohclDecode ext { p.lf with obj := o } body (routed (nullKeys p.vals) p.lf p.vals .plain) = .ok p.raw := hraw
    simp only [hg, hheap]
  simp only [decode, decodeStruct, hp']
  have hst : steps env ext (decode env ext root n) ⟨p.vals, { p.lf with obj := o }, p.raw, p.heap⟩ node labels path body =
      steps env ext (decode env ext root n) p node labels path body := by
    simp only [steps, routed_obj]
    congr 1
    apply List.map_congr_left
    intro f hf
    funext fs st
    obtain ⟨v, hv⟩ := Option.isSome_iff_exists.1 (hhas f hf)
    have ho : GoMap.get? o f.name = some v := hs1 _ _ hv
    simp only [oriStep, oriBlocks_obj, ho, hv]
  rw [hst]
  exact hs

end Verif.HclS
