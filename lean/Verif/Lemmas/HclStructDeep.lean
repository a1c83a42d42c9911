import Verif.Spec.HclStructDeep
/-!
# Decoding with specifications that are filled at all levels
-/
set_option linter.unusedSimpArgs false
namespace Verif.HclS
open Tree (Heap)
open Hcl (Cty)
open Det (Cls CVal KeyTy insertK ltB ltB2)

variable {env : Env} {ext : Ext}

theorem forall2_self {α : Type} {R : α → α → Prop} (h : ∀ a, R a a) : ∀ l : List α, List.Forall₂ R l l
  | [] => .nil
  | a :: l => .cons (h a) (forall2_self h l)

theorem SpecV.refl {R : Cls → Cls → Prop} (h : ∀ a, R a a) (v : CVal) : SpecV R v v := by
  cases v with
  | none => trivial
  | single a => exact h a
  | list l => exact forall2_self h l
  | map m => exact forall2_self (fun x => ⟨rfl, h x.2⟩) m
  | map2 m => exact forall2_self (fun x => ⟨rfl, forall2_self (fun x => ⟨rfl, h x.2⟩) x.2⟩) m

theorem FilledIn.refl {N : Nat} {ref : GoMap Bytes Tmpl} {V : CVal → CVal → Prop} (h : ∀ v, V v v) (types : Nat → Prop) (obj : List (Bytes × CVal)) :
    FilledIn env ext N ref V types obj obj :=
  ⟨fun _ v hk => ⟨v, hk, h v⟩, fun _ _ hk => Or.inl (by rw [hk]; rfl)⟩

theorem DeepC.refl {N : Nat} {ref : GoMap Bytes Tmpl} : ∀ (n : Nat) (a : Cls), DeepC env ext N ref n a a
  | 0, _ => rfl
  | n + 1, _ => ⟨rfl, FilledIn.refl (SpecV.refl (DeepC.refl n)) _ _⟩

theorem DeepC.name {N : Nat} {ref : GoMap Bytes Tmpl} {n : Nat} {a a' : Cls} (h : DeepC env ext N ref n a a') : a.name = a'.name := by
  cases n with
  | zero => exact h
  | succ n => exact h.1

theorem wholeList_mono {deep deep' : List Fld → List Fld} (h : ∀ fs, ∀ f ∈ deep fs, f ∈ deep' fs) : ∀ fs, ∀ f ∈ wholeList env deep fs, f ∈ wholeList env deep' fs
  | [], _, hf => by cases hf
  | g :: fs, f, hf => by
    simp only [wholeList, List.mem_append] at hf ⊢
    rcases hf with hf | hf
    · refine Or.inl ?_
      split
      · rename_i hu; rw [if_pos hu] at hf; exact hf
      · rename_i hu
        rw [if_neg hu] at hf
        rcases List.mem_cons.1 hf with rfl | hf
        · simp
        · refine List.mem_cons_of_mem _ ?_
          split
          · rename_i ht
            rw [if_pos ht] at hf
            cases hs : g.ty.structOf with
            | none => rw [hs] at hf; exact hf
            | some c => rw [hs] at hf; exact h _ _ hf
          · rename_i ht; rw [if_neg ht] at hf; exact hf
    · exact Or.inr (wholeList_mono h fs f hf)

theorem whole_succ : ∀ n fs, ∀ f ∈ whole env n fs, f ∈ whole env (n + 1) fs
  | 0 => wholeList_mono fun _ _ h => by cases h
  | n + 1 => wholeList_mono (whole_succ n)

theorem whole_mono {n N : Nat} (h : n ≤ N) (fs : List Fld) : ∀ f ∈ whole env n fs, f ∈ whole env N fs := by
  induction h with
  | refl => exact fun _ h => h
  | step _ ih => exact fun f hf => whole_succ _ _ _ (ih f hf)

/-! ## `loopFields` -/

/-- As `Twin`, with entries that are related only. -/
structure TwinV (V : CVal → CVal → Prop) (env : Env) (ext : Ext) (A : List Fld) (x y : LF) : Prop where
  same : ∃ o, y = { x with obj := o }
  sub : ∀ k v, GoMap.get? x.obj k = some v → ∃ v', GoMap.get? y.obj k = some v' ∧ V v v'
  extra : ∀ k v, GoMap.get? y.obj k = some v → (GoMap.get? x.obj k).isSome ∨ SelfMade env ext A y.ref k v
  has : ∀ f ∈ x.oris, (GoMap.get? x.obj f.name).isSome

theorem loopList_twinV {V : CVal → CVal → Prop} (hV : ∀ v, V v v) {A : List Fld} (hA : ∀ f ∈ A, ∀ g ∈ A, f.name = g.name → f = g) (hone : OneNew env ext)
    {nulls : List Bytes} {deep : List Fld → LF → Except Fail LF} {wdeep : List Fld → List Fld}
    (hdeep : ∀ fs x y x', (∀ f ∈ wdeep fs, f ∈ A) → TwinV V env ext A x y → deep fs x = .ok x' → ∃ y', deep fs y = .ok y' ∧ TwinV V env ext A x' y') :
    ∀ fs x y x', (∀ f ∈ wholeList env wdeep fs, f ∈ A) → TwinV V env ext A x y → loopList env ext nulls deep fs x = .ok x' →
      ∃ y', loopList env ext nulls deep fs y = .ok y' ∧ TwinV V env ext A x' y' := by
  intro fs
  induction fs with
  | nil => intro x y x' _ ht h; simp only [loopList] at h ⊢; cases h; exact ⟨y, rfl, ht⟩
  | cons f fs ih =>
    intro x y x' hw ht h
    have hws : ∀ g ∈ wholeList env wdeep fs, g ∈ A := fun g hg => hw g (by simp only [wholeList]; exact List.mem_append_right _ hg)
    simp only [loopList] at h ⊢
    by_cases h1 : (!f.upper) = true
    · rw [if_pos h1] at h ⊢; exact ih _ _ _ hws ht h
    rw [if_neg h1] at h ⊢
    have hup : f.upper = true := by simpa using h1
    have hfA : f ∈ A := hw f (by simp only [wholeList, hup]; simp)
    by_cases h2 : f.tag ∈ nulls
    · rw [if_pos h2] at h ⊢; exact ih _ _ _ hws ht h
    rw [if_neg h2] at h ⊢
    obtain ⟨⟨o, rfl⟩, hsub, hext, hhas⟩ := ht
    by_cases h3 : lower f.what = b "label"
    · rw [if_pos h3] at h ⊢
      exact ih { x with labels := x.labels ++ [f] } _ _ hws ⟨⟨o, rfl⟩, hsub, hext, hhas⟩ h
    rw [if_neg h3] at h ⊢
    by_cases h4 : f.tag = b "-" ∨ (b ",-").isSuffixOf f.tag
    · rw [if_pos h4] at h ⊢
      exact ih x _ _ hws ⟨⟨o, rfl⟩, hsub, hext, hhas⟩ h
    rw [if_neg h4] at h ⊢
    dsimp only at hsub hext ⊢
    by_cases h5 : (GoMap.get? x.obj f.name).isSome
    · have h5' : (GoMap.get? o f.name).isSome := by
        obtain ⟨v, hv⟩ := Option.isSome_iff_exists.1 h5
        obtain ⟨v', hv', _⟩ := hsub _ _ hv
        rw [hv']; rfl
      rw [if_pos h5] at h
      rw [if_pos h5']
      by_cases h6 : f.tag = [] ∧ f.ty.structOf.isSome
      · rw [if_pos h6] at h; cases h
      · rw [if_neg h6] at h ⊢
        refine ih { x with oris := x.oris ++ [f] } _ _ hws ⟨⟨o, rfl⟩, hsub, hext, ?_⟩ h
        intro g hg
        rcases List.mem_append.1 hg with hg | hg
        · exact hhas g hg
        · rw [List.mem_singleton.1 hg]; exact h5
    · rw [if_neg h5] at h
      have hown : ∀ v, GoMap.get? o f.name = some v → f.tag ≠ [] ∧ ∃ nm tm, auto env ext f = some (nm, tm, v) ∧ GoMap.get? x.ref nm = some tm := by
        intro v hv
        rcases hext _ _ hv with hv | ⟨g, hg, hn, htag, nm, tm, ha, hr⟩
        · exact absurd hv h5
        · rw [hA g hg f hfA hn] at htag ha
          exact ⟨htag, nm, tm, ha, hr⟩
      by_cases h6 : f.tag = []
      · have h5' : ¬ (GoMap.get? o f.name).isSome = true := by
          intro hs
          obtain ⟨v, hv⟩ := Option.isSome_iff_exists.1 hs
          exact (hown v hv).1 h6
        rw [if_pos h6] at h
        rw [if_neg h5', if_pos h6]
        cases hst : f.ty.structOf with
        | none =>
          rw [hst] at h
          exact ih x _ _ hws ⟨⟨o, rfl⟩, hsub, hext, hhas⟩ h
        | some c =>
          rw [hst] at h
          dsimp only at h ⊢
          cases hd : deep (env.struct c).fields x with
          | error e => rw [hd] at h; cases h
          | ok x1 =>
            rw [hd] at h
            obtain ⟨y1, hy1, ht1⟩ := hdeep (env.struct c).fields x { x with obj := o } x1
              (fun g hg => hw g (by simp only [wholeList, hup, h6, hst]; simp [hg])) ⟨⟨o, rfl⟩, hsub, hext, hhas⟩ hd
            rw [hy1]
            exact ih _ _ _ hws ht1 h
      · rw [if_neg h6] at h
        cases ha : auto env ext f with
        | none =>
          have h5' : ¬ (GoMap.get? o f.name).isSome = true := by
            intro hs
            obtain ⟨v, hv⟩ := Option.isSome_iff_exists.1 hs
            obtain ⟨_, nm, tm, ha', _⟩ := hown v hv
            rw [ha] at ha'; cases ha'
          rw [if_neg h5', if_neg h6]
          rcases addTagged_none ha with hadd | hadd
          · rw [hadd] at h ⊢
            exact ih { x with news := x.news ++ [f] } _ _ hws ⟨⟨o, rfl⟩, hsub, hext, hhas⟩ h
          · rw [hadd] at h ⊢
            exact ih { x with decs := x.decs ++ [f] } _ _ hws ⟨⟨o, rfl⟩, hsub, hext, hhas⟩ h
        | some e =>
          obtain ⟨nm, tm, v⟩ := e
          rw [addTagged_auto ha] at h
          have hhas' : ∀ g ∈ x.oris ++ [f], (GoMap.get? (GoMap.set x.obj f.name v) g.name).isSome := by
            intro g hg
            rw [GoMap.get?_set]
            split
            · rfl
            · rename_i hne
              rcases List.mem_append.1 hg with hg | hg
              · exact hhas g hg
              · rw [List.mem_singleton.1 hg] at hne; exact absurd rfl hne
          by_cases h5' : (GoMap.get? o f.name).isSome = true
          · rw [if_pos h5']
            obtain ⟨w, hw'⟩ := Option.isSome_iff_exists.1 h5'
            obtain ⟨_, nm', tm', ha', hr⟩ := hown w hw'
            rw [ha] at ha'
            cases ha'
            rw [if_neg (fun hh => h6 hh.1)]
            refine ih (x.addOri f nm tm v) _ _ hws ⟨⟨o, ?_⟩, ?_, ?_, hhas'⟩ h
            · simp only [LF.addOri, set_self hr]
            · intro k u hu
              simp only [LF.addOri, GoMap.get?_set] at hu
              split at hu
              · rename_i hk; subst hk; cases hu; exact ⟨_, hw', hV _⟩
              · exact hsub _ _ hu
            · intro k u hu
              rcases hext k u hu with hu' | hu'
              · refine Or.inl ?_
                simp only [LF.addOri, GoMap.get?_set]
                split
                · rfl
                · exact hu'
              · exact Or.inr hu'
          · rw [if_neg h5', if_neg h6, addTagged_auto ha]
            refine ih (x.addOri f nm tm v) _ _ hws ⟨⟨GoMap.set o f.name v, rfl⟩, ?_, ?_, hhas'⟩ h
            · intro k u hu
              simp only [LF.addOri, GoMap.get?_set] at hu ⊢
              split at hu
              · rename_i hk; rw [if_pos hk]; exact ⟨_, rfl, by cases hu; exact hV _⟩
              · rename_i hk; rw [if_neg hk]; exact hsub _ _ hu
            · intro k u hu
              simp only [LF.addOri, GoMap.get?_set] at hu ⊢
              split at hu
              · rename_i hk; rw [if_pos hk]; exact Or.inl rfl
              · rename_i hk; rw [if_neg hk]
                rcases hext k u hu with hu' | hu'
                · exact Or.inl hu'
                · exact Or.inr (hu'.set hone (auto_entry ha))

theorem loopFields_twinV {V : CVal → CVal → Prop} (hV : ∀ v, V v v) {A : List Fld} (hA : ∀ f ∈ A, ∀ g ∈ A, f.name = g.name → f = g) (hone : OneNew env ext)
    {nulls : List Bytes} : ∀ n fs x y x', (∀ f ∈ whole env n fs, f ∈ A) → TwinV V env ext A x y → loopFields env ext nulls n fs x = .ok x' →
      ∃ y', loopFields env ext nulls n fs y = .ok y' ∧ TwinV V env ext A x' y' := by
  intro n
  induction n with
  | zero => exact loopList_twinV hV hA hone fun _ _ _ _ _ _ h => by cases h
  | succ n ih => exact loopList_twinV hV hA hone ih

/-! ## Blocks -/

section blocks
variable {ref0 : GoMap Bytes Tmpl} {R : Cls → Cls → Prop} {rec rec' : Rec}

/-- The calls for blocks do the same for related classes. -/
structure RecDeep (env : Env) (ext : Ext) (ref0 : GoMap Bytes Tmpl) (R : Cls → Cls → Prop) (rec rec' : Rec) : Prop where
  name : ∀ {a a'}, R a a' → a.name = a'.name
  step : RecRel (fun st st' => RefStep env ext st.ref st'.ref) rec
  same : ∀ {path st node c content a a' labels body fs st'}, RefStep env ext ref0 st.ref → R a a' → GoMap.get? st.ref a.name = some (.ptr c content) →
    rec path st node c content a.fields labels body = (fs, .ok st') → rec' path st node c content a'.fields labels body = (fs, .ok st')

variable (hr : RecDeep env ext ref0 R rec rec')
include hr

theorem decodeBlock_deep {path st node tag blk a a' ml r} (hs : RefStep env ext ref0 st.ref) (ha : R a a')
    (h : decodeBlock rec path st node tag blk a ml = .ok r) :
    decodeBlock rec' path st node tag blk a' ml = .ok r ∧ RefStep env ext ref0 r.2.ref := by
  refine ⟨?_, hs.trans (decodeBlock_rel (c := r.1.1) (fs := r.1.2) hr.step h)⟩
  simp only [decodeBlock] at h ⊢
  rw [← hr.name ha]
  cases hg : Tree.getNode st.heap node tag blk.labels with
  | none => rw [hg] at h; cases h
  | some sub =>
    rw [hg] at h
    cases hc : GoMap.get? st.ref a.name with
    | none => rw [hc] at h; cases h
    | some t =>
      rw [hc] at h
      cases t with
      | nil => cases h
      | bad => cases h
      | ptr c content =>
        dsimp only at h ⊢
        split
        · rename_i hm; rw [if_pos hm] at h; cases h
        · rename_i hm
          rw [if_neg hm] at h
          cases hb : blk.body with
          | none => rw [hb] at h; cases h
          | some body =>
            rw [hb] at h
            cases sub with
            | none => cases h
            | some sub =>
              dsimp only at h ⊢
              cases hrun : rec path st sub c content a.fields blk.labels body with
              | mk fs out =>
                rw [hrun] at h
                cases out with
                | error e => cases h
                | ok st' => rw [hr.same hs ha hc hrun]; exact h

theorem listLoop_deep {path node tag ety first first'} (hf : R first first') : ∀ {blks cs cs' st r}, List.Forall₂ R cs cs' → RefStep env ext ref0 st.ref →
    listLoop env rec path node tag ety first cs blks st = .ok r → listLoop env rec' path node tag ety first' cs' blks st = .ok r
  | [], _, _, st, r, _, _, h => by simp only [listLoop] at h ⊢; exact h
  | blk :: blks, cs, cs', st, r, hcs, hs, h => by
    simp only [listLoop] at h ⊢
    have hhd : R (cs.headD first) (cs'.headD first') := by cases hcs <;> assumption
    have htl : List.Forall₂ R cs.tail cs'.tail := by
      cases hcs with
      | nil => exact .nil
      | cons _ hx => exact hx
    cases hd : decodeBlock rec (place path tag blks) st node tag blk (cs.headD first) none with
    | error e => rw [hd] at h; cases h
    | ok w =>
      obtain ⟨⟨c, fs⟩, st1⟩ := w
      obtain ⟨hd', hs'⟩ := decodeBlock_deep hr hs hhd hd
      rw [hd] at h
      rw [hd']
      dsimp only at h ⊢
      cases hst : store env ety c fs with
      | error e => rw [hst] at h; cases h
      | ok v =>
        rw [hst] at h
        dsimp only at h ⊢
        cases hl : listLoop env rec path node tag ety first cs.tail blks st1 with
        | error e => rw [hl] at h; cases h
        | ok r1 => rw [listLoop_deep hf htl hs' hl]; rw [hl] at h; exact h

theorem listMapLoop_deep {path node tag kt ety first first'} (hf : R first first') : ∀ {blks st acc r}, RefStep env ext ref0 st.ref →
    listMapLoop env rec path node tag kt ety first blks st acc = .ok r → listMapLoop env rec' path node tag kt ety first' blks st acc = .ok r
  | [], st, acc, r, _, h => h
  | blk :: blks, st, acc, r, hs, h => by
    simp only [listMapLoop] at h ⊢
    cases hd : decodeBlock rec (place path tag blks) st node tag blk first none with
    | error e => rw [hd] at h; cases h
    | ok w =>
      obtain ⟨⟨c, fs⟩, st1⟩ := w
      obtain ⟨hd', hs'⟩ := decodeBlock_deep hr hs hf hd
      rw [hd] at h
      rw [hd']
      dsimp only at h ⊢
      cases hl : blk.labels with
      | nil => rw [hl] at h; cases h
      | cons key ks =>
        rw [hl] at h
        dsimp only at h ⊢
        split
        · rename_i hk
          rw [if_pos hk] at h
          cases hst : store env ety c fs with
          | error e => rw [hst] at h; cases h
          | ok v => rw [hst] at h; exact listMapLoop_deep hf hs' h
        · rename_i hk; rw [if_neg hk] at h; cases h

omit hr in
theorem get_forall2 {α β : Type} {R : α → β → Prop} {m : List (Bytes × α)} {m' : List (Bytes × β)}
    (h : List.Forall₂ (fun x y => x.1 = y.1 ∧ R x.2 y.2) m m') (k : Bytes) :
    (GoMap.get? m k = none ∧ GoMap.get? m' k = none) ∨ ∃ a a', GoMap.get? m k = some a ∧ GoMap.get? m' k = some a' ∧ R a a' := by
  induction h with
  | nil => exact Or.inl ⟨rfl, rfl⟩
  | @cons x y _ _ hx _ ih =>
    obtain ⟨k1, a⟩ := x
    obtain ⟨k2, a'⟩ := y
    obtain ⟨rfl, hr⟩ := hx
    simp only [GoMap.get?]
    split
    · exact Or.inr ⟨a, a', rfl, rfl, hr⟩
    · exact ih

omit hr in
theorem keys_forall2 {α β : Type} {R : α → β → Prop} {m : List (Bytes × α)} {m' : List (Bytes × β)}
    (h : List.Forall₂ (fun x y => x.1 = y.1 ∧ R x.2 y.2) m m') : GoMap.keys m = GoMap.keys m' := by
  induction h with
  | nil => rfl
  | cons hx _ ih =>
    simp only [GoMap.keys, List.map_cons] at ih ⊢
    rw [ih, hx.1]

/-- Related or both missing. -/
def OptRel {α β : Type} (R : α → β → Prop) : Option α → Option β → Prop
  | none, none => True
  | some a, some a' => R a a'
  | _, _ => False

omit hr in
theorem OptRel.get {α β : Type} {R : α → β → Prop} {m : List (Bytes × α)} {m' : List (Bytes × β)}
    (h : List.Forall₂ (fun x y => x.1 = y.1 ∧ R x.2 y.2) m m') (k : Bytes) : OptRel R (GoMap.get? m k) (GoMap.get? m' k) := by
  rcases get_forall2 h k with ⟨h1, h2⟩ | ⟨a, a', h1, h2, h3⟩
  · rw [h1, h2]; trivial
  · rw [h1, h2]; exact h3

omit hr in
theorem OptRel.or {α β : Type} {R : α → β → Prop} {x y : Option α} {x' y' : Option β} (h : OptRel R x x') (h' : OptRel R y y') :
    OptRel R (x.or y) (x'.or y') := by
  cases x <;> cases x' <;> first | exact h.elim | exact h' | exact h

omit hr in
theorem OptRel.first {R : Cls → Cls → Prop} {ord : List Bytes} {m m' : List (Bytes × Cls)}
    (h : List.Forall₂ (fun x y => x.1 = y.1 ∧ R x.2 y.2) m m') : OptRel R (firstOf ord m) (firstOf ord m') := by
  simp only [firstOf]
  cases ord.head? with
  | none => trivial
  | some k => exact OptRel.get h k

theorem mapLoop_deep {path node tag kt ety m m' first first'} (hm : List.Forall₂ (fun x y => x.1 = y.1 ∧ R x.2 y.2) m m') (hf : OptRel R first first') :
    ∀ {blks st acc r}, RefStep env ext ref0 st.ref →
    mapLoop env rec path node tag kt ety m first blks st acc = .ok r → mapLoop env rec' path node tag kt ety m' first' blks st acc = .ok r
  | [], st, acc, r, _, h => h
  | blk :: blks, st, acc, r, hs, h => by
    simp only [mapLoop] at h ⊢
    cases hl : blk.labels with
    | nil => rw [hl] at h; cases h
    | cons key ks =>
      rw [hl] at h
      dsimp only at h ⊢
      have ho := (OptRel.get hm key).or hf
      cases hx : (GoMap.get? m key).or first with
      | none => rw [hx] at h; cases h
      | some a =>
        rw [hx] at h ho
        cases hx' : (GoMap.get? m' key).or first' with
        | none => rw [hx'] at ho; exact ho.elim
        | some a' =>
          rw [hx'] at ho
          simp only [orPanic] at h ⊢
          cases hd : decodeBlock rec (place path tag blks) st node tag blk a (some 1) with
          | error e => rw [hd] at h; cases h
          | ok w =>
            obtain ⟨⟨c, fs⟩, st1⟩ := w
            obtain ⟨hd', hs'⟩ := decodeBlock_deep hr hs ho hd
            rw [hd] at h
            rw [hd']
            dsimp only at h ⊢
            split
            · rename_i hk
              rw [if_pos hk] at h
              cases hst : store env ety c fs with
              | error e => rw [hst] at h; cases h
              | ok v => rw [hst] at h; exact mapLoop_deep hm hf hs' h
            · rename_i hk; rw [if_neg hk] at h; cases h

theorem map2Loop_deep {path node tag kt ety m m' first first' ff ff'}
    (hm : List.Forall₂ (fun x y => x.1 = y.1 ∧ List.Forall₂ (fun x y => x.1 = y.1 ∧ R x.2 y.2) x.2 y.2) m m')
    (hf : OptRel (List.Forall₂ (fun x y => x.1 = y.1 ∧ R x.2 y.2)) first first') (hff : OptRel R ff ff') :
    ∀ {blks st acc r}, RefStep env ext ref0 st.ref →
    map2Loop env rec path node tag kt ety m first ff blks st acc = .ok r → map2Loop env rec' path node tag kt ety m' first' ff' blks st acc = .ok r
  | [], st, acc, r, _, h => h
  | blk :: blks, st, acc, r, hs, h => by
    simp only [map2Loop] at h ⊢
    have hg := OptRel.get hm (blk.labels.getD 0 [])
    have hin : List.Forall₂ (fun x y => x.1 = y.1 ∧ R x.2 y.2) ((GoMap.get? m (blk.labels.getD 0 [])).getD (first.getD []))
        ((GoMap.get? m' (blk.labels.getD 0 [])).getD (first'.getD [])) := by
      cases h1 : GoMap.get? m (blk.labels.getD 0 []) with
      | some x =>
        rw [h1] at hg
        cases h2 : GoMap.get? m' (blk.labels.getD 0 []) with
        | none => rw [h2] at hg; exact hg.elim
        | some x' => rw [h2] at hg; exact hg
      | none =>
        rw [h1] at hg
        cases h2 : GoMap.get? m' (blk.labels.getD 0 []) with
        | some x' => rw [h2] at hg; exact hg.elim
        | none =>
          cases first with
          | none =>
            cases first' with
            | none => exact .nil
            | some _ => exact hf.elim
          | some _ =>
            cases first' with
            | none => exact hf.elim
            | some _ => exact hf
    have ho := (OptRel.get hin (blk.labels.getD 1 [])).or hff
    cases hx : (GoMap.get? ((GoMap.get? m (blk.labels.getD 0 [])).getD (first.getD [])) (blk.labels.getD 1 [])).or ff with
    | none => rw [hx] at h; cases h
    | some a =>
      rw [hx] at h ho
      cases hx' : (GoMap.get? ((GoMap.get? m' (blk.labels.getD 0 [])).getD (first'.getD [])) (blk.labels.getD 1 [])).or ff' with
      | none => rw [hx'] at ho; exact ho.elim
      | some a' =>
        rw [hx'] at ho
        simp only [orPanic] at h ⊢
        cases hd : decodeBlock rec (place path tag blks) st node tag blk a (some 2) with
        | error e => rw [hd] at h; cases h
        | ok w =>
          obtain ⟨⟨c, fs⟩, st1⟩ := w
          obtain ⟨hd', hs'⟩ := decodeBlock_deep hr hs ho hd
          rw [hd] at h
          rw [hd']
          dsimp only at h ⊢
          split
          · rename_i hk
            rw [if_pos hk] at h
            cases hst : store env ety c fs with
            | error e => rw [hst] at h; cases h
            | ok v => rw [hst] at h; exact map2Loop_deep hm hf hff hs' h
          · rename_i hk; rw [if_neg hk] at h; cases h

theorem oriValue_deep {path node tag ty v v' blks st r} (hv : SpecV R v v') (hs : RefStep env ext ref0 st.ref)
    (h : oriValue env ext rec path node tag ty v blks st = .ok r) : oriValue env ext rec' path node tag ty v' blks st = .ok r := by
  cases v with
  | none => cases v' <;> first | exact hv.elim | exact h
  | single a =>
    cases v' <;> try exact hv.elim
    rename_i a'
    cases blks with
    | nil => cases h
    | cons blk blks =>
      simp only [oriValue] at h ⊢
      cases hd : decodeBlock rec (place path tag blks) st node tag blk a none with
      | error e => rw [hd] at h; cases h
      | ok w => rw [(decodeBlock_deep hr hs hv hd).1]; rw [hd] at h; exact h
  | list l =>
    cases v' <;> try exact hv.elim
    rename_i l'
    cases hv with
    | nil => cases h
    | @cons a a' l l' ha hl =>
      simp only [oriValue] at h ⊢
      split
      · obtain ⟨w, hw, he⟩ := map_ok' h
        rw [listMapLoop_deep hr ha hs hw, he]; rfl
      · obtain ⟨w, hw, he⟩ := map_ok' h
        rw [listLoop_deep hr ha (.cons ha hl) hs hw, he]; rfl
      · rename_i h1 h2
        split at h
        · exact absurd rfl (h1 _ _)
        · exact absurd rfl (h2 _)
        · cases h
  | map m =>
    cases v' <;> try exact hv.elim
    rename_i m'
    simp only [oriValue] at h ⊢
    rw [← keys_forall2 hv]
    split
    · obtain ⟨w, hw, he⟩ := map_ok' h
      rw [mapLoop_deep hr hv (OptRel.first hv) hs hw, he]; rfl
    · rename_i h1
      split at h
      · exact absurd rfl (h1 _ _)
      · cases h
  | map2 m =>
    cases v' <;> try exact hv.elim
    rename_i m'
    simp only [oriValue] at h ⊢
    rw [← keys_forall2 hv]
    split
    · obtain ⟨w, hw, he⟩ := map_ok' h
      have h1 : OptRel (List.Forall₂ (fun x y => x.1 = y.1 ∧ R x.2 y.2)) ((ext.ord (path ++ [tag]) (GoMap.keys m)).head?.bind (GoMap.get? m))
          ((ext.ord (path ++ [tag]) (GoMap.keys m)).head?.bind (GoMap.get? m')) := by
        cases (ext.ord (path ++ [tag]) (GoMap.keys m)).head? with
        | none => trivial
        | some k => exact OptRel.get hv k
      have h2 := h1
      generalize (ext.ord (path ++ [tag]) (GoMap.keys m)).head?.bind (GoMap.get? m) = x at hw h1 h2
      generalize (ext.ord (path ++ [tag]) (GoMap.keys m)).head?.bind (GoMap.get? m') = x' at h1 h2 ⊢
      have h3 : OptRel R (x.bind fun x => firstOf (ext.ord (path ++ [tag, tag]) (GoMap.keys x)) x)
          (x'.bind fun x => firstOf (ext.ord (path ++ [tag, tag]) (GoMap.keys x)) x) := by
        cases x <;> cases x' <;> try exact h1.elim
        · trivial
        · rename_i y y'
          simp only [Option.bind_some, ← keys_forall2 h1]
          exact OptRel.first h1
      rw [map2Loop_deep hr hv h2 h3 hs hw, he]; rfl
    · rename_i h1
      split at h
      · exact absurd rfl (h1 _ _)
      · cases h

end blocks

/-! ## The call -/

theorem runSteps_deep {ref0 : GoMap Bytes Tmpl} {α : Type} {g g' : α → Step} : ∀ {l : List α}
    (_ : ∀ x ∈ l, ∀ fs st r, RefStep env ext ref0 st.ref → g x fs st = .ok r → g' x fs st = .ok r ∧ RefStep env ext ref0 r.2.ref)
    {fs st fs1 st1}, RefStep env ext ref0 st.ref → runSteps (l.map g) fs st = (fs1, .ok st1) → runSteps (l.map g') fs st = (fs1, .ok st1)
  | [], _, _, _, _, _, _, h => h
  | x :: l, hl, fs, st, fs1, st1, hs, h => by
    simp only [List.map_cons, runSteps] at h ⊢
    cases hx : g x fs st with
    | error e => rw [hx] at h; cases h
    | ok r =>
      obtain ⟨hx', hs'⟩ := hl x (by simp) fs st r hs hx
      rw [hx] at h
      rw [hx']
      exact runSteps_deep (fun y hy => hl y (by simp [hy])) hs' h

theorem decodeStruct_deep {N n root : Nat} {ref0 : GoMap Bytes Tmpl} {R : Cls → Cls → Prop} {rec rec' : Rec} (hone : OneNew env ext)
    (hR : ∀ a, R a a) (hrec : RecDeep env ext ref0 R rec rec') {path st node cls fs obj obj' labels body fs' st'} (hnames : NamesOnce env N cls) (hN : n ≤ N)
    (hs : RefStep env ext ref0 st.ref) (hobj : FilledIn env ext N ref0 (SpecV R) (· = cls) obj obj')
    (h : decodeStruct env ext root n rec path st node cls fs obj labels body = (fs', .ok st')) :
    decodeStruct env ext root n rec' path st node cls fs obj' labels body = (fs', .ok st') := by
  simp only [decodeStruct] at h
  cases hp : prepare env ext n root st node cls obj path body with
  | error e => rw [hp] at h; cases h
  | ok p =>
    rw [hp] at h
    dsimp only at h
    obtain ⟨h1, h2, hpre, hori, hheap, hraw⟩ := prepare_ok hp
    obtain ⟨h0, hev, hbl, hlf⟩ := prelude_ok hpre
    have hself : ∀ k v', GoMap.get? obj' k = some v' →
        (GoMap.get? obj k).isSome ∨ SelfMade env ext (whole env N (env.struct cls).fields) st.ref k v' := by
      intro k v' hk
      refine (hobj.2 k v' hk).imp_right fun hall => ?_
      obtain ⟨f, hf, hn, htag, nm, tm, ha, hr⟩ := hall cls rfl
      refine ⟨f, hf, hn, htag, nm, tm, ha, ?_⟩
      rcases hs nm with h3 | ⟨t, ht, h3⟩
      · exact h3.trans hr
      · rw [hone _ _ _ (auto_entry ha) ht] at h3; exact h3
    obtain ⟨y, hy, ⟨o, rfl⟩, hs1, _, hhas⟩ := loopFields_twinV (V := SpecV R) (SpecV.refl hR) hnames hone n _
      ⟨[], [], [], [], obj, st.ref⟩ ⟨[], [], [], [], obj', st.ref⟩ _ (whole_mono hN _) ⟨⟨obj', rfl⟩, hobj.1, hself, fun f hf => by cases hf⟩ hlf
    have hp' : prepare env ext n root st node cls obj' path body = .ok ⟨p.vals, { p.lf with obj := o }, p.raw, p.heap⟩ := by
      simp only [prepare, prelude, hev, hbl, hy, oriAttrs_obj, hori, routed_obj]
      have hg : gohclDecode ext { p.lf with obj := o } body (routed (nullKeys p.vals) p.lf p.vals .plain) = .ok p.raw := hraw
      simp only [hg, hheap]
    simp only [decodeStruct, hp']
    have hs0 : RefStep env ext ref0 p.lf.ref := hs.trans (loopFields_step _ _ _ _ hlf)
    simp only [steps, routed_obj] at h ⊢
    obtain ⟨fs2, st2, hr1, hr2⟩ := runSteps_append.1 h
    have hs2 : RefStep env ext ref0 st2.ref := by
      refine hs0.trans (runSteps_rel (refRel env ext root) (fun s hmem fs st fs1 st1 he => ?_) hr1)
      exact steps_rel (refRel env ext root) hrec.step (p := p) (node := node) (labels := labels) (path := path) (body := body) s
        (by simp only [steps]; exact List.mem_append_left _ hmem) fs st fs1 st1 he
    refine runSteps_append.2 ⟨fs2, st2, hr1, runSteps_deep (fun f hf fs st r hst he => ⟨?_, ?_⟩) hs2 hr2⟩
    · obtain ⟨v, hv⟩ := Option.isSome_iff_exists.1 (hhas f hf)
      obtain ⟨v', ho, hvv⟩ := hs1 _ _ hv
      simp only [oriStep, oriBlocks_obj, ho, hv, Option.getD_some] at he ⊢
      cases hb : oriBlocks ext (nullKeys p.vals) p.lf body p.vals f.tag with
      | nil => rw [hb] at he; exact he
      | cons blk blks =>
        rw [hb] at he
        dsimp only at he ⊢
        cases hov : oriValue env ext rec path node f.tag f.ty v (blk :: blks) st with
        | error e => rw [hov] at he; cases he
        | ok w => rw [oriValue_deep hrec hvv hst hov]; rw [hov] at he; exact he
    · exact hst.trans (oriStep_rel (refRel env ext root) hrec.step (fs1 := r.1) (st1 := r.2) he)

/-- With entries at any level that would be made anyway, decoding is the same. -/
theorem decode_deep {N root : Nat} {ref0 : GoMap Bytes Tmpl} (hone : OneNew env ext) (hnames : ∀ c, NamesOnce env N c) :
    ∀ (n : Nat) {path st node cls fs obj obj' labels body fs' st'}, n ≤ N → RefStep env ext ref0 st.ref → DeepFilled env ext N ref0 n cls obj obj' →
      decode env ext root (n + 1) path st node cls fs obj labels body = (fs', .ok st') →
      decode env ext root (n + 1) path st node cls fs obj' labels body = (fs', .ok st')
  | 0, _, _, _, cls, _, _, _, _, _, _, _, hN, hs, hobj, h =>
    decodeStruct_deep hone (DeepC.refl 0) ⟨fun h => h, decode_rel (refRel env ext root) 0, fun _ _ _ h => by cases h⟩ (hnames cls) hN hs hobj h
  | n + 1, _, _, _, cls, _, _, _, _, _, _, _, hN, hs, hobj, h => by
    refine decodeStruct_deep hone (DeepC.refl (n + 1)) ⟨DeepC.name, decode_rel (refRel env ext root) (n + 1),
      fun {path st node c content a a' labels body fs st'} hs ha hc h => ?_⟩ (hnames cls) hN hs hobj h
    refine decode_deep hone hnames n (by omega) hs ?_ h
    refine ⟨ha.2.1, fun k v' hk => (ha.2.2 k v' hk).imp_right fun hall c' hc' => ?_⟩
    subst hc'
    refine hall _ ⟨content, ?_⟩
    rcases hs a.name with h1 | ⟨t, ht, h1⟩
    · exact Or.inl (h1.symm.trans hc)
    · rw [hc] at h1; cases h1; exact Or.inr ht

end Verif.HclS
