import Verif.Spec.Det
import Verif.Lemmas.GoMap
set_option linter.unusedSimpArgs false
/-! The recursion of `JsonUnmarshal`: the cut-off is never reached, and a call depends on its
nested calls only for the specifications it contains. -/
namespace Verif.Det

theorem assignable_iff {env : Env} {t : Ty} {c : Nat} : assignable env t c = true ↔ Holds env t c := by
  unfold assignable
  constructor
  · intro h
    split at h
    · rename_i c' hc; simp at h; subst h; exact .ptr hc
    · rename_i i hi; exact .iface hi h
    · simp at h
  · intro h
    cases h with
    | ptr h => simp [h]
    | iface h h2 => simp [h, h2]

theorem suffix_iff (x y : Bytes) : x.isSuffixOf y = true ↔ x <:+ y := List.isSuffixOf_iff_suffix

mutual
theorem Fld.loop_sound : (g : Fld) → ∀ f ∈ g.loop, Exported [g] f
  | .mk n u tag ty e => by
    intro f hf
    simp only [Fld.loop] at hf
    split at hf
    · simp at hf
    · rename_i hu
      split at hf
      · simp at hf
      · rename_i ht
        simp only [not_or] at ht
        cases u with
        | false => simp at hu
        | true =>
        split at hf
        · rename_i h0
          exact loopEmbed_sound n tag ty h0 e e (Or.inl rfl) f hf
        · rename_i h0
          simp at hf; subst hf
          exact .own (by simp) ht.1 (fun h => ht.2 ((suffix_iff _ _).2 h)) (Or.inl h0)
theorem loopEmbed_sound (n tag : Bytes) (ty : Ty) (h0 : tag = []) : (e e' : Option (List Fld)) → (e' = e ∨ False) →
    ∀ f ∈ loopEmbed (.mk n true tag ty e') e, Exported [.mk n true tag ty e'] f
  | none, e', he => by
    intro f hf
    simp at he; subst he
    simp only [loopEmbed, List.mem_singleton] at hf
    subst hf; subst h0
    exact .own (by simp) (by decide) (by decide) (Or.inr rfl)
  | some deep, e', he => by
    intro f hf
    simp at he; subst he
    simp only [loopEmbed] at hf
    subst h0
    exact .embedded (n := n) (ty := ty) (deep := deep) (by simp) (loopFields_sound deep f hf)
theorem loopFields_sound : (fs : List Fld) → ∀ f ∈ loopFields fs, Exported fs f
  | [] => by intro f hf; simp [loopFields] at hf
  | g :: fs => by
    intro f hf
    simp only [loopFields, List.mem_append] at hf
    rcases hf with h | h
    · cases Fld.loop_sound g f h with
      | own h1 h2 h3 h4 => exact .own (by simp at h1; simp [h1]) h2 h3 h4
      | embedded h1 h2 => simp only [List.mem_singleton] at h1; subst h1; exact .embedded (List.mem_cons_self ..) h2
    · cases loopFields_sound fs f h with
      | own h1 h2 h3 h4 => exact .own (List.mem_cons_of_mem _ h1) h2 h3 h4
      | embedded h1 h2 => exact .embedded (List.mem_cons_of_mem _ h1) h2
end

theorem loopFields_mem {g : Fld} {fs : List Fld} (h : g ∈ fs) {f : Fld} (hf : f ∈ g.loop) : f ∈ loopFields fs := by
  induction fs with
  | nil => simp at h
  | cons a fs ih =>
    simp only [loopFields, List.mem_append]
    simp only [List.mem_cons] at h
    rcases h with rfl | h
    · exact Or.inl hf
    · exact Or.inr (ih h)

theorem loopFields_complete {fs : List Fld} {f : Fld} (h : Exported fs f) : f ∈ loopFields fs := by
  induction h with
  | own h1 h2 h3 h4 =>
    rename_i fs n tag ty e
    refine loopFields_mem h1 ?_
    simp only [Fld.loop, Bool.not_true, Bool.false_eq_true, if_false]
    rw [if_neg (by
      simp only [not_or]
      exact ⟨h2, fun h => h3 ((suffix_iff _ _).1 h)⟩)]
    split
    · rename_i h0
      rcases h4 with h4 | h4
      · exact absurd h0 h4
      · subst h4; simp [loopEmbed]
    · simp
  | embedded h1 _ ih =>
    refine loopFields_mem h1 ?_
    simp only [Fld.loop, Bool.not_true, Bool.false_eq_true, if_false]
    rw [if_neg (by decide)]
    simpa [loopEmbed] using ih

theorem flatFields_mem {g : Fld} {fs : List Fld} (h : g ∈ fs) {x} (hf : x ∈ g.flat) : x ∈ flatFields fs := by
  induction fs with
  | nil => simp at h
  | cons a fs ih =>
    simp only [flatFields, List.mem_append]
    simp only [List.mem_cons] at h
    rcases h with rfl | h
    · exact Or.inl hf
    · exact Or.inr (ih h)

theorem flatFields_exported {fs : List Fld} {f : Fld} (h : Exported fs f) : (f.name, f.ty) ∈ flatFields fs := by
  induction h with
  | own h1 h2 h3 h4 =>
    refine flatFields_mem h1 ?_
    simp only [Fld.flat, Fld.name, Fld.ty]
    split
    · rename_i h0
      rcases h4 with h4 | h4
      · exact absurd h0 h4
      · subst h4; simp [flatEmbed]
    · simp
  | embedded h1 _ ih =>
    refine flatFields_mem h1 ?_
    simpa [Fld.flat, flatEmbed] using ih

theorem depthL_le {l : List Cls} {s} (h : s ∈ l) : s.depth ≤ depthL l := by
  induction l with
  | nil => simp at h
  | cons a l ih =>
    simp only [List.mem_cons] at h
    simp only [depthL]
    rcases h with rfl | h
    · omega
    · have := ih h; omega

theorem depthM_le {l : List (Bytes × Cls)} {s} (h : s ∈ l.map Prod.snd) : s.depth ≤ depthM l := by
  induction l with
  | nil => simp at h
  | cons a l ih =>
    obtain ⟨k, a⟩ := a
    simp only [List.map_cons, List.mem_cons] at h
    simp only [depthM]
    rcases h with rfl | h
    · omega
    · have := ih h; omega

theorem depthM2_le {l : List (Bytes × List (Bytes × Cls))} {s}
    (h : s ∈ l.flatMap fun e => e.2.map Prod.snd) : s.depth ≤ depthM2 l := by
  induction l with
  | nil => simp at h
  | cons a l ih =>
    obtain ⟨k, a⟩ := a
    simp only [List.flatMap_cons, List.mem_append] at h
    simp only [depthM2]
    rcases h with h | h
    · have := depthM_le h; omega
    · have := ih h; omega

theorem CVal.subs_depth {v : CVal} {s} (h : s ∈ v.subs) : s.depth ≤ v.depth := by
  cases v with
  | none => simp [CVal.subs] at h
  | single x => simp [CVal.subs] at h; subst h; simp [CVal.depth]
  | list l => simp only [CVal.depth]; exact depthL_le h
  | map m => simp only [CVal.depth]; exact depthM_le h
  | map2 m => simp only [CVal.depth]; exact depthM2_le h

theorem depthF_le {l : List (Bytes × CVal)} {e} (h : e ∈ l) : e.2.depth ≤ depthF l := by
  induction l with
  | nil => simp at h
  | cons a l ih =>
    obtain ⟨k, a⟩ := a
    simp only [List.mem_cons] at h
    simp only [depthF]
    rcases h with rfl | h
    · simp only; omega
    · have := ih h; omega

theorem Cls.subs_depth {s t : Cls} (h : t ∈ s.subs) : t.depth < s.depth := by
  obtain ⟨n, fs⟩ := s
  simp only [Cls.subs, Cls.fields, List.mem_flatMap] at h
  obtain ⟨e, h1, h2⟩ := h
  have a := CVal.subs_depth h2
  have c := depthF_le h1
  simp only [Cls.depth]
  omega

theorem get?_subs {m : List (Bytes × Cls)} {k : Bytes} {first : Cls} (hf : first ∈ m.map Prod.snd) :
    (GoMap.get? m k).getD first ∈ m.map Prod.snd := by
  cases h : GoMap.get? m k with
  | none => simpa using hf
  | some v =>
    have := GoMap.get?_mem h
    exact List.mem_map.2 ⟨_, this, rfl⟩

theorem foldl_first_mem {α : Type} (m : List (Bytes × α)) (e : Bytes × α) :
    m.foldl (fun best e => if ltB e.1 best.1 then e else best) e ∈ e :: m := by
  induction m generalizing e with
  | nil => simp
  | cons a m ih =>
    simp only [List.foldl_cons]
    have := ih (if ltB a.1 e.1 = true then a else e)
    simp only [List.mem_cons] at this ⊢
    split at this
    · rename_i h; simp only [h, if_true] at this ⊢
      rcases this with h | h
      · rw [h]; simp
      · simp [h]
    · rename_i h; simp only [h] at this ⊢
      rcases this with h | h
      · left; simpa using h
      · simp [h]

theorem getFirst_mem {α : Type} {m : List (Bytes × α)} {v : α} (h : getFirst m = some v) :
    ∃ k, (k, v) ∈ m := by
  cases m with
  | nil => simp [getFirst] at h
  | cons e m =>
    obtain ⟨k, w⟩ := e
    simp only [getFirst, Option.some.injEq] at h
    have := foldl_first_mem m (k, w)
    subst h
    exact ⟨_, this⟩

section congr
variable {env : Env} {ord : List Bytes → List Bytes → List Bytes}
variable {el el' : List Bytes → Cls → Doc → Out Inst}

theorem mapLoop_congr {path kt et specs first raw}
    (h : ∀ s ∈ specs.map Prod.snd, ∀ p d, el p s d = el' p s d)
    (hf : first ∈ specs.map Prod.snd) (keys acc) :
    mapLoop env el path kt et specs first raw keys acc
      = mapLoop env el' path kt et specs first raw keys acc := by
  induction keys generalizing acc with
  | nil => rfl
  | cons k ks ih =>
    simp only [mapLoop]
    rw [h _ (get?_subs hf)]
    simp only [ih]

theorem listMapLoop_congr {path kt et raw} {specs : List Cls} {first : Cls}
    (h : ∀ s ∈ specs, ∀ p d, el p s d = el' p s d)
    (hf : first ∈ specs) (n keys acc) :
    listMapLoop env el path kt et specs first raw n keys acc
      = listMapLoop env el' path kt et specs first raw n keys acc := by
  induction keys generalizing acc n with
  | nil => rfl
  | cons k ks ih =>
    simp only [listMapLoop]
    have : (specs[n]?).getD first ∈ specs := by
      cases h : specs[n]? with
      | none => simpa using hf
      | some v => exact List.mem_of_getElem? h
    rw [h _ this]
    simp only [ih]

theorem sliceLoop_congr {path et} {specs : List Cls} {first : Cls}
    (h : ∀ s ∈ specs, ∀ p d, el p s d = el' p s d)
    (hf : first ∈ specs) (n js) :
    sliceLoop env el path et specs first n js = sliceLoop env el' path et specs first n js := by
  induction js generalizing n with
  | nil => rfl
  | cons k ks ih =>
    simp only [sliceLoop]
    have : (specs[n]?).getD first ∈ specs := by
      cases h : specs[n]? with
      | none => simpa using hf
      | some v => exact List.mem_of_getElem? h
    rw [h _ this]
    simp only [ih]

theorem map2Inner_congr {path kt et key0 raw} {inner : List (Bytes × Cls)} {first : Cls}
    (h : ∀ s ∈ inner.map Prod.snd, ∀ p d, el p s d = el' p s d)
    (hf : ∀ p d, el p first d = el' p first d) (keys acc) :
    map2Inner env el path kt et inner first key0 raw keys acc
      = map2Inner env el' path kt et inner first key0 raw keys acc := by
  induction keys generalizing acc with
  | nil => rfl
  | cons k ks ih =>
    simp only [map2Inner]
    have : ∀ p d, el p ((GoMap.get? inner k).getD first) d = el' p ((GoMap.get? inner k).getD first) d := by
      cases hk : GoMap.get? inner k with
      | none => exact hf
      | some v => exact h v (List.mem_map.2 ⟨_, GoMap.get?_mem hk, rfl⟩)
    rw [this]
    simp only [ih]

theorem map2Outer_congr {path kt et raw} {specs : List (Bytes × List (Bytes × Cls))}
    {firstMap : List (Bytes × Cls)} {first : Cls}
    (h : ∀ s ∈ specs.flatMap (fun e => e.2.map Prod.snd), ∀ p d, el p s d = el' p s d)
    (hm : ∃ k, (k, firstMap) ∈ specs) (hf : first ∈ firstMap.map Prod.snd) (keys acc) :
    map2Outer env ord el path kt et specs firstMap first raw keys acc
      = map2Outer env ord el' path kt et specs firstMap first raw keys acc := by
  have hin : ∀ k m, (k, m) ∈ specs → ∀ s ∈ m.map Prod.snd, ∀ p d, el p s d = el' p s d :=
    fun k m hkm s hs => h s (List.mem_flatMap.2 ⟨_, hkm, hs⟩)
  obtain ⟨k0, hk0⟩ := hm
  induction keys generalizing acc with
  | nil => rfl
  | cons k ks ih =>
    simp only [map2Outer]
    have : ∀ s ∈ ((GoMap.get? specs k).getD firstMap).map Prod.snd, ∀ p d, el p s d = el' p s d := by
      cases hk : GoMap.get? specs k with
      | none => exact hin k0 _ hk0
      | some v => exact hin k _ (GoMap.get?_mem hk)
    rw [map2Inner_congr this (hin k0 _ hk0 _ hf)]
    simp only [ih]

theorem fieldValue_congr {path f raw} {objectMap : List (Bytes × CVal)}
    (h : ∀ s ∈ objectMap.flatMap (fun e => e.2.subs), ∀ p d, el p s d = el' p s d) :
    fieldValue env ord el path objectMap f raw = fieldValue env ord el' path objectMap f raw := by
  have hs : ∀ v, GoMap.get? objectMap f.name = some v → ∀ s ∈ v.subs, ∀ p d, el p s d = el' p s d :=
    fun v hv s hs => h s (List.mem_flatMap.2 ⟨_, GoMap.get?_mem hv, hs⟩)
  unfold fieldValue
  simp only
  split
  · rfl
  · rename_i x m hx
    have hs := hs _ hx
    congr 1
    unfold handleMap2Struct
    split
    · rfl
    · rename_i fm hfm
      split
      · rfl
      · rename_i fs hfs
        obtain ⟨k, hk⟩ := getFirst_mem hfs
        split
        · rw [map2Outer_congr hs (getFirst_mem hfm) (List.mem_map.2 ⟨_, hk, rfl⟩)]
        · rfl
  · rename_i x m hx
    have hs := hs _ hx
    congr 1
    unfold handleMapStruct
    split
    · rfl
    · rename_i fs hfs
      obtain ⟨k, hk⟩ := getFirst_mem hfs
      split
      · rw [mapLoop_congr hs (List.mem_map.2 ⟨_, hk, rfl⟩)]
      · rfl
  · rename_i x hx
    have hs := hs _ hx
    congr 1
    unfold handleListOrMapStruct
    split
    · rfl
    · split
      · simp only [CVal.subs] at hs
        rw [listMapLoop_congr hs (by simp)]
      · simp only [CVal.subs] at hs
        rw [sliceLoop_congr hs (by simp)]
      · rfl
  · rename_i x m hx
    have hs := hs _ hx
    congr 1
    unfold handleSingleStruct
    rw [hs x (by simp [CVal.subs])]
  · rfl
  · rfl

theorem fieldLoop_congr {path} {objectMap : List (Bytes × CVal)}
    (h : ∀ s ∈ objectMap.flatMap (fun e => e.2.subs), ∀ p d, el p s d = el' p s d) (l tgt) :
    fieldLoop env ord el path objectMap l tgt = fieldLoop env ord el' path objectMap l tgt := by
  induction l generalizing tgt with
  | nil => rfl
  | cons x l ih =>
    obtain ⟨f, raw⟩ := x
    simp only [fieldLoop]
    rw [fieldValue_congr h]
    simp only [ih]

end congr

theorem jsonUnmarshalStep_congr {env ext fuel} {rec rec' : Ref → List Bytes → Inst → Cls → Doc → Res}
    {spec : Cls} (h : ∀ s ∈ spec.subs, ∀ ref p t d, rec ref p t s d = rec' ref p t s d) (ref path tgt dat) :
    jsonUnmarshalStep env ext fuel rec ref path tgt spec dat
      = jsonUnmarshalStep env ext fuel rec' ref path tgt spec dat := by
  unfold jsonUnmarshalStep
  split
  · rfl
  · split
    · rfl
    · simp only
      split
      · rfl
      · split
        · rfl
        · apply fieldLoop_congr
          intro s hs p d
          unfold element
          simp only [h s hs]

theorem jsonUnmarshalN_eq (env ext fuel) (n m : Nat) (s : Cls) (h1 : s.depth ≤ n) (h2 : s.depth ≤ m) (ref p t d) :
    jsonUnmarshalN env ext fuel n ref p t s d = jsonUnmarshalN env ext fuel m ref p t s d := by
  induction n generalizing m s ref p t d with
  | zero => obtain ⟨a, c⟩ := s; simp [Cls.depth] at h1
  | succ n ih =>
    cases m with
    | zero => obtain ⟨a, c⟩ := s; simp [Cls.depth] at h2
    | succ m =>
      simp only [jsonUnmarshalN]
      apply jsonUnmarshalStep_congr
      intro s' hs' ref p t d
      have := Cls.subs_depth hs'
      exact ih m s' (by omega) (by omega) _ _ _ _

/-- `JsonUnmarshal` satisfies its recursion equation. -/
theorem decode_eq (env ext fuel ref path tgt s dat) :
    decode env ext fuel ref path tgt s dat
      = jsonUnmarshalStep env ext fuel (decode env ext fuel) ref path tgt s dat := by
  have hd : s.depth = (s.depth - 1) + 1 := by obtain ⟨a, c⟩ := s; simp [Cls.depth]
  unfold decode
  rw [hd]
  simp only [jsonUnmarshalN]
  apply jsonUnmarshalStep_congr
  intro s' hs' ref p t d
  have := Cls.subs_depth hs'
  exact jsonUnmarshalN_eq env ext fuel _ _ s' (by omega) (Nat.le_refl _) _ _ _ _

/-- For evaluating examples. -/
theorem decode_eqN {env ext fuel ref path tgt s dat} (n : Nat) (h : s.depth ≤ n) :
    decode env ext fuel ref path tgt s dat = jsonUnmarshalN env ext fuel n ref path tgt s dat :=
  jsonUnmarshalN_eq env ext fuel _ _ s (Nat.le_refl _) h _ _ _ _

end Verif.Det
