import Verif.Spec.HclStructMem
import Verif.Lemmas.HclStructDeep
/-!
# Decoding with nested specifications in memory
-/
set_option linter.unusedSimpArgs false
namespace Verif.HclS
open Det (Cls CVal)

variable {env : Env} {ext : Ext}

theorem loopList_twin_err {A : List Fld} (hA : ∀ f ∈ A, ∀ g ∈ A, f.name = g.name → f = g) (hone : OneNew env ext) {nulls : List Bytes}
    {deep : List Fld → LF → Except Fail LF} {wdeep : List Fld → List Fld}
    (hdeep : ∀ fs x y x', (∀ f ∈ wdeep fs, f ∈ A) → Twin env ext A x y → deep fs x = .ok x' → ∃ y', deep fs y = .ok y' ∧ Twin env ext A x' y') {e : Fail}
    (herr : ∀ fs x y, (∀ f ∈ wdeep fs, f ∈ A) → Twin env ext A x y → deep fs x = .error e → deep fs y = .error e) :
    ∀ fs x y, (∀ f ∈ wholeList env wdeep fs, f ∈ A) → Twin env ext A x y → loopList env ext nulls deep fs x = .error e →
      loopList env ext nulls deep fs y = .error e := by
  intro fs
  induction fs with
  | nil => intro x y _ ht h; simp only [loopList] at h; cases h
  | cons f fs ih =>
    intro x y hw ht h
    have hws : ∀ g ∈ wholeList env wdeep fs, g ∈ A := fun g hg => hw g (by simp only [wholeList]; exact List.mem_append_right _ hg)
    simp only [loopList] at h ⊢
    by_cases h1 : (!f.upper) = true
    · rw [if_pos h1] at h ⊢; exact ih _ _ hws ht h
    rw [if_neg h1] at h ⊢
    have hup : f.upper = true := by simpa using h1
    have hfA : f ∈ A := hw f (by simp only [wholeList, hup]; simp)
    by_cases h2 : f.tag ∈ nulls
    · rw [if_pos h2] at h ⊢; exact ih _ _ hws ht h
    rw [if_neg h2] at h ⊢
    obtain ⟨⟨o, rfl⟩, hsub, hext, hhas⟩ := ht
    by_cases h3 : lower f.what = b "label"
    · rw [if_pos h3] at h ⊢
      exact ih { x with labels := x.labels ++ [f] } _ hws ⟨⟨o, rfl⟩, hsub, hext, hhas⟩ h
    rw [if_neg h3] at h ⊢
    by_cases h4 : f.tag = b "-" ∨ (b ",-").isSuffixOf f.tag
    · rw [if_pos h4] at h ⊢
      exact ih x _ hws ⟨⟨o, rfl⟩, hsub, hext, hhas⟩ h
    rw [if_neg h4] at h ⊢
    dsimp only at hsub hext ⊢
    by_cases h5 : (GoMap.get? x.obj f.name).isSome
    · have h5' : (GoMap.get? o f.name).isSome := by
        obtain ⟨v, hv⟩ := Option.isSome_iff_exists.1 h5
        rw [hsub _ _ hv]; rfl
      rw [if_pos h5] at h
      rw [if_pos h5']
      by_cases h6 : f.tag = [] ∧ f.ty.structOf.isSome
      · rw [if_pos h6] at h ⊢; exact h
      · rw [if_neg h6] at h ⊢
        refine ih { x with oris := x.oris ++ [f] } _ hws ⟨⟨o, rfl⟩, hsub, hext, ?_⟩ h
        intro g hg
        rcases List.mem_append.1 hg with hg | hg
        · exact hhas g hg
        · rw [List.mem_singleton.1 hg]; exact h5
    · rw [if_neg h5] at h
      have hown : ∀ v, GoMap.get? o f.name = some v → f.tag ≠ [] ∧ ∃ nm tm, auto env ext f = some (nm, tm, v) ∧ GoMap.get? x.ref nm = some tm := by
        intro v hv
        rcases hext _ _ hv with hv | ⟨g, hg, hn, htag, nm, tm, ha, hr⟩
        · rw [hv] at h5; exact absurd rfl h5
        · rw [hA g hg f hfA hn] at htag ha
          exact ⟨htag, nm, tm, ha, hr⟩
      by_cases h6 : f.tag = []
      · have h5' : ¬ (GoMap.get? o f.name).isSome = true := by
          intro hs
          obtain ⟨v, hv⟩ := Option.isSome_iff_exists.1 hs
          exact (hown v hv).1 h6
        rw [if_pos h6] at h
        rw [if_neg h5', if_pos h6]
        cases hst : f.ty.structOf with
        | none =>
          rw [hst] at h
          exact ih x _ hws ⟨⟨o, rfl⟩, hsub, hext, hhas⟩ h
        | some c =>
          rw [hst] at h
          dsimp only at h ⊢
          cases hd : deep (env.struct c).fields x with
          | error e' =>
            rw [hd] at h
            cases h
            rw [herr (env.struct c).fields x { x with obj := o } (fun g hg => hw g (by simp only [wholeList, hup, h6, hst]; simp [hg])) ⟨⟨o, rfl⟩, hsub, hext, hhas⟩ hd]
          | ok x1 =>
            rw [hd] at h
            obtain ⟨y1, hy1, ht1⟩ := hdeep (env.struct c).fields x { x with obj := o } x1
              (fun g hg => hw g (by simp only [wholeList, hup, h6, hst]; simp [hg])) ⟨⟨o, rfl⟩, hsub, hext, hhas⟩ hd
            rw [hy1]
            exact ih _ _ hws ht1 h
      · rw [if_neg h6] at h
        cases ha : auto env ext f with
        | none =>
          have h5' : ¬ (GoMap.get? o f.name).isSome = true := by
            intro hs
            obtain ⟨v, hv⟩ := Option.isSome_iff_exists.1 hs
            obtain ⟨_, nm, tm, ha', _⟩ := hown v hv
            rw [ha] at ha'; cases ha'
          rw [if_neg h5', if_neg h6]
          rcases addTagged_none ha with hadd | hadd
          · rw [hadd] at h ⊢
            exact ih { x with news := x.news ++ [f] } _ hws ⟨⟨o, rfl⟩, hsub, hext, hhas⟩ h
          · rw [hadd] at h ⊢
            exact ih { x with decs := x.decs ++ [f] } _ hws ⟨⟨o, rfl⟩, hsub, hext, hhas⟩ h
        | some e' =>
          obtain ⟨nm, tm, v⟩ := e'
          rw [addTagged_auto ha] at h
          have hhas' : ∀ g ∈ x.oris ++ [f], (GoMap.get? (GoMap.set x.obj f.name v) g.name).isSome := by
            intro g hg
            rw [GoMap.get?_set]
            split
            · rfl
            · rename_i hne
              rcases List.mem_append.1 hg with hg | hg
              · exact hhas g hg
              · rw [List.mem_singleton.1 hg] at hne; exact absurd rfl hne
          by_cases h5' : (GoMap.get? o f.name).isSome = true
          · rw [if_pos h5']
            obtain ⟨w, hw'⟩ := Option.isSome_iff_exists.1 h5'
            obtain ⟨_, nm', tm', ha', hr⟩ := hown w hw'
            rw [ha] at ha'
            cases ha'
            rw [if_neg (fun hh => h6 hh.1)]
            refine ih (x.addOri f nm tm v) _ hws ⟨⟨o, ?_⟩, ?_, ?_, hhas'⟩ h
            · simp only [LF.addOri, set_self hr]
            · intro k u hu
              simp only [LF.addOri, GoMap.get?_set] at hu
              split at hu
              · rename_i hk; subst hk; cases hu; exact hw'
              · exact hsub _ _ hu
            · intro k u hu
              rcases hext k u hu with hu' | hu'
              · refine Or.inl ?_
                simp only [LF.addOri, GoMap.get?_set]
                split
                · rename_i hk; subst hk; rw [← hu]; exact hw'.symm
                · exact hu'
              · exact Or.inr hu'
          · rw [if_neg h5', if_neg h6, addTagged_auto ha]
            refine ih (x.addOri f nm tm v) _ hws ⟨⟨GoMap.set o f.name v, rfl⟩, ?_, ?_, hhas'⟩ h
            · intro k u hu
              simp only [LF.addOri, GoMap.get?_set] at hu ⊢
              split at hu
              · rename_i hk; rw [if_pos hk]; exact hu
              · rename_i hk; rw [if_neg hk]; exact hsub _ _ hu
            · intro k u hu
              simp only [LF.addOri, GoMap.get?_set] at hu ⊢
              split at hu
              · rename_i hk; rw [if_pos hk]; exact Or.inl hu
              · rename_i hk; rw [if_neg hk]
                rcases hext k u hu with hu' | hu'
                · exact Or.inl hu'
                · exact Or.inr (hu'.set hone (auto_entry ha))

theorem loopFields_twin_err {A : List Fld} (hA : ∀ f ∈ A, ∀ g ∈ A, f.name = g.name → f = g) (hone : OneNew env ext) {nulls : List Bytes} {e : Fail} :
    ∀ n fs x y, (∀ f ∈ whole env n fs, f ∈ A) → Twin env ext A x y → loopFields env ext nulls n fs x = .error e →
      loopFields env ext nulls n fs y = .error e := by
  intro n
  induction n with
  | zero => exact loopList_twin_err hA hone (fun _ _ _ _ _ _ h => by cases h) fun _ _ _ _ _ h => h
  | succ n ih => exact loopList_twin_err hA hone (loopFields_twin hA hone n) ih

/-- With the entries that would be made anyway, a call does the same, also if it fails. -/
theorem decodeStruct_same {N n root : Nat} {rec : Rec} {path : List Bytes} {st : St} {node cls : Nat} {fs : Fields} {obj found : List (Bytes × CVal)}
    {labels : List Bytes} {body : Body} (hone : OneNew env ext) (hA : NamesOnce env N cls) (hN : n ≤ N) (hfound : Holds1 env ext N cls st.ref obj found) :
    decodeStruct env ext root n rec path st node cls fs found labels body = decodeStruct env ext root n rec path st node cls fs obj labels body := by
  simp only [decodeStruct, prepare, prelude]
  cases evalAttrs ext root node body.attrs (ext.ord (path ++ [b "attributes"]) (GoMap.keys body.attrs)) st.heap with
  | error e => rfl
  | ok r =>
    obtain ⟨vals, h⟩ := r
    dsimp only
    cases addBlockNodes node body.blocks h with
    | error e => rfl
    | ok h =>
      dsimp only
      have ht : Twin env ext (whole env N (env.struct cls).fields) ⟨[], [], [], [], obj, st.ref⟩ ⟨[], [], [], [], found, st.ref⟩ :=
        ⟨⟨found, rfl⟩, hfound.1, hfound.2, fun f hf => by cases hf⟩
      cases hl : loopFields env ext (nullKeys vals) n (env.struct cls).fields ⟨[], [], [], [], obj, st.ref⟩ with
      | error e => rw [loopFields_twin_err hA hone n _ _ _ (whole_mono hN _) ht hl]
      | ok lf =>
        obtain ⟨y, hy, ⟨o, rfl⟩, hs1, _, hhas⟩ := loopFields_twin hA hone n _ _ _ _ (whole_mono hN _) ht hl
        rw [hy]
        dsimp only
        rw [oriAttrs_obj]
        cases oriAttrs (nullKeys vals) lf vals node (ext.ord (path ++ [b "refresh"]) (GoMap.keys body.attrs)) h with
        | error e => rfl
        | ok h1 =>
          dsimp only
          rw [routed_obj]
          have hg : gohclDecode ext { lf with obj := o } body (routed (nullKeys vals) lf vals .plain) =
            gohclDecode ext lf body (routed (nullKeys vals) lf vals .plain) := rfl
          rw [hg]
          cases gohclDecode ext lf body (routed (nullKeys vals) lf vals .plain) with
          | error e => rfl
          | ok raw =>
            dsimp only
            have hst : steps env ext rec ⟨vals, { lf with obj := o }, raw, h1⟩ node labels path body =
                steps env ext rec ⟨vals, lf, raw, h1⟩ node labels path body := by
              simp only [steps, routed_obj]
              congr 1
              apply List.map_congr_left
              intro f hf
              funext fs st
              obtain ⟨v, hv⟩ := Option.isSome_iff_exists.1 (hhas f hf)
              have ho : GoMap.get? o f.name = some v := hs1 _ _ hv
              simp only [oriStep, oriBlocks_obj, ho, hv]
            rw [hst]

theorem decodeMem_same {N root : Nat} {mem : SpecMem} (hone : OneNew env ext) (hnames : ∀ c, NamesOnce env N c) (hmem : Honest env ext N mem) :
    ∀ n, n ≤ N + 1 → decodeMem env ext mem root n = decode env ext root n
  | 0, _ => rfl
  | n + 1, hN => by
    funext path st node cls fs obj labels body
    simp only [decodeMem, decode]
    rw [decodeMem_same hone hnames hmem n (by omega)]
    exact decodeStruct_same hone (hnames cls) (by omega) (hmem path st cls obj)

end Verif.HclS
